import Verif.Props.C70b
import Verif.Props.C75

/-!
# C75, continued: interpolation with rounding by periodic splines on uniform B-splines
-/

namespace DDC.Props

open One Dom LinProb Rounded Spec Finset

variable {fl : Rat → Rat} {L : Lapack Rat} {ρ : Nat → (Nat → Nat → Rat) → Rat}

theorem positionError_small {a b : Rat} (hab : a < b) {n p : Nat} (hn : n ≤ 35000) (hpn : p < n)
    (hres : |a| * n ≤ 2 ^ 46 * (b - a)) : 0 ≤ positionError a b n p ∧ positionError a b n p < 1 / 4 := by
  have hd : 0 < b - a := sub_pos.2 hab
  have h1 : |a| * n / (b - a) ≤ 2 ^ 46 := by rw [div_le_iff₀ hd]; exact hres
  have h2 : (p : Rat) ≤ 35000 := by exact_mod_cast (show p ≤ 35000 by omega)
  have h3 : (n : Rat) ≤ 35000 := by exact_mod_cast hn
  refine ⟨by rw [positionError]; positivity, ?_⟩
  rw [positionError, div_lt_iff₀ (by norm_num)]
  linarith

theorem shift_range (p : Nat) : 0 ≤ grevilleShift p ∧ grevilleShift p ≤ 1 / 2 := by
  rw [grevilleShift]; split <;> norm_num

/-- The evaluator at an interpolation point. -/
theorem uniform_evaluates (hfl : RoundsNearest fl) {a b : Rat} (hab : a < b) {n p : Nat} (hp : 0 < p) (hpn : p < n)
    (hn : n ≤ 35000) (hres : |a| * n ≤ 2 ^ 46 * (b - a)) {k : Knots} (hk : k = mkKnots fl a b n p)
    (lower upper : Rat → Coefs Rat → Res Rat) (c : Nat → Rat) {M : Rat} (hM : ∀ J, J < n + p → |c J| ≤ M) {i : Nat} (hi : i < n) :
    ∃ y, k.eval fl true lower upper (k.grevillePoint fl i) (coefsOf (n + p) c) = .ok y ∧
      |y - ∑ J ∈ range (n + p), c J * bspline (intKnot p) (n + 1) p J (i + grevilleShift p)| ≤
        (p * (p + 15) / 2 ^ 53 + 3 / 2 ^ 53 + 2 * p * positionError a b n p) * M := by
  obtain ⟨d0, d1⟩ := positionError_small hab hn hpn hres
  obtain ⟨s0, s1⟩ := shift_range p
  have kp : k.p = p := by rw [hk]; rfl
  obtain ⟨cl, o, e, h1, h2, h3, h4, h5, h6, -⟩ := point_cell hfl hab (by omega) (by omega) (by omega) hres hk hi
  rw [← positionError] at h4
  have hcl : cl < n := by
    have := (abs_le.1 h4).2
    have a1 : (cl : Rat) < i + 1 := by linarith
    have a2 : cl < i + 1 := by exact_mod_cast a1
    omega
  have hi0 : (0 : Rat) ≤ i := Nat.cast_nonneg i
  have hi1 : (i : Rat) + 1 ≤ n := by exact_mod_cast hi
  obtain ⟨v, ev, ⟨q1, q2, f, q3, q4, q5, q6, q7⟩⟩ := ubs_evalBasisR hfl.toRoundsAll hp (by omega) kp e h1 h2 h3
    (y := i + grevilleShift p) (by linarith) (by linarith) h4 (by linarith) (values := Arr.uninit (p + 1)) rfl
  have hf : f (n + p) = 0 := q4 _ (by omega)
  rw [sum_range_succ] at q6 q7
  rw [hf, add_zero] at q7
  obtain ⟨y, e1, h⟩ := close_eval (N := n + p) hfl.toRoundsAll (by omega) (by omega) (by omega) hM q1 q3 q4 q5
    (le_trans (le_add_of_nonneg_right (abs_nonneg _)) q6) q7
  refine ⟨y, ?_, h.trans (le_of_eq (by ring))⟩
  rw [Knots.eval, if_pos rfl, wrap, wrapOf, if_neg (by rw [not_or, not_lt, not_lt]; exact ⟨h5, h6.le⟩), Knots.evalNoBc, kp,
    ev, Res.ok_bind]
  dsimp only
  rw [BitVec.ofInt_natCast]
  exact e1

/-- A spline on the integers, and on the knots of the domain. -/
theorem uniform_splineValue {a b : Rat} (hab : a < b) {n p : Nat} (hp : 0 < p) (hn : 0 < n) (c : Nat → Rat) (z : Rat) :
    splineValue (uniformKnot a b n p) p n c (a + z * ((b - a) / n)) =
      ∑ J ∈ range (n + p), c J * bspline (intKnot p) (n + 1) p J z := by
  obtain ⟨q, rfl⟩ : ∃ q, p = q + 1 := ⟨p - 1, by omega⟩
  have hn0 : (0 : Rat) < n := by exact_mod_cast hn
  have hh : 0 < (b - a) / n := div_pos (sub_pos.2 hab) hn0
  rw [splineValue]
  refine sum_congr rfl fun J _ => ?_
  rw [bspline_cardinal hh (by intro k j; rw [uniformKnot, uniformKnot]; push_cast; ring),
    bspline_cardinal one_pos (by intro k j; rw [intKnot, intKnot]; push_cast; ring)]
  congr 2
  rw [uniformKnot, intKnot, div_one]
  generalize (b - a) / (n : Rat) = d at hh
  rw [show a + z * d - (a + ((J : Rat) - ((q + 1 : Nat) : Rat)) * d) = (z - (J - (q + 1 : Nat))) * d by ring, mul_div_assoc,
    div_self hh.ne', mul_one]

/-- The B-splines that are not zero at a point. -/
theorem int_spline {n p i : Nat} (hp : 0 < p) (hi : i < n) (c : Nat → Rat) (b : Rat) :
    ∑ J ∈ range (n + p), c J * bspline (intKnot p) b p J (i + grevilleShift p) =
      ∑ r ∈ range (2 * (p / 2) + 1), c (i + r) * bspline (intKnot p) b p r (grevilleShift p) := by
  obtain ⟨q, rfl⟩ : ∃ q, p = q + 1 := ⟨p - 1, by omega⟩
  obtain ⟨s0, s1⟩ := shift_range (q + 1)
  have ht : ∀ k j : Nat, intKnot (q + 1) (k + j) = intKnot (q + 1) k + (j : Rat) * 1 := by
    intro k j; rw [intKnot, intKnot]; push_cast; ring
  rw [cell_sum (p := 2 * ((q + 1) / 2)) (c := i) (by omega)]
  · refine sum_congr rfl fun r _ => ?_
    rw [bspline_cardinal one_pos ht, bspline_cardinal one_pos ht]
    congr 2
    rw [intKnot, intKnot]
    push_cast
    ring
  · intro J hJ
    rw [bspline_cardinal one_pos ht, intKnot, div_one]
    push_cast
    by_cases c1 : J < i
    · have : (J : Rat) + 1 ≤ i := by exact_mod_cast c1
      rw [cardinal_big q (by linarith), mul_zero]
    · have c2 : i + 2 * ((q + 1) / 2) + 1 ≤ J := by omega
      have c3 : (i : Rat) + (2 * ((q + 1) / 2) : Nat) + 1 ≤ J := by exact_mod_cast c2
      rw [cardinal_neg q, mul_zero]
      rw [grevilleShift]
      split_ifs with c4
      · have : ((2 * ((q + 1) / 2) : Nat) : Rat) = q + 1 := by exact_mod_cast (show 2 * ((q + 1) / 2) = q + 1 by omega)
        linarith
      · have : ((2 * ((q + 1) / 2) : Nat) : Rat) = q := by exact_mod_cast (show 2 * ((q + 1) / 2) = q by omega)
        linarith

/-- A row of the matrix, and the spline at the point of the row. -/
theorem circulant_spline {p n : Nat} (hpn : p < n) {A : Nat → Nat → Rat} {ε ε' : Rat} (hε : 0 ≤ ε) (hε' : 0 ≤ ε')
    (h : CirculantNear p n A ε ε') {x c : Nat → Rat} {M : Rat} (hM : 0 ≤ M) (hx : ∀ j, j < n → |x j| ≤ M)
    (hc : ∀ J, J < n + p → c J = x (((J : Int) - (p / 2 : Nat)) % (n : Int)).toNat) {i : Nat} (hi : i < n) :
    |∑ j ∈ range n, A i j * x j - ∑ r ∈ range (2 * (p / 2) + 1), c (i + r) * bspline (intKnot p) (n + 1) p r (grevilleShift p)| ≤
      ((2 * (p / 2) + 1 : Nat) * ε + n * ε') * M := by
  obtain ⟨B, hB⟩ : ∃ B : Nat → Rat, B = fun r => bspline (intKnot p) (n + 1) p r (grevilleShift p) := ⟨_, rfl⟩
  obtain ⟨g, hg⟩ : ∃ g : Nat → Nat, g = fun r => (((i + r : Nat) : Int) - (p / 2 : Nat)) % (n : Int) |>.toNat := ⟨_, rfl⟩
  have hgn : ∀ r, g r < n := by
    intro r
    rw [hg]
    have h1 := Int.emod_nonneg (((i + r : Nat) : Int) - (p / 2 : Nat)) (show (n : Int) ≠ 0 by omega)
    have h2 := Int.emod_lt_of_pos (((i + r : Nat) : Int) - (p / 2 : Nat)) (show 0 < (n : Int) by omega)
    dsimp only
    omega
  have hgr : ∀ r, r ≤ 2 * (p / 2) → g r = if i + r < p / 2 then i + r + n - p / 2 else if i + r < n + p / 2 then i + r - p / 2 else
      i + r - p / 2 - n := by
    intro r hr
    rw [hg]
    dsimp only
    split_ifs with c1 c2
    · rw [← Int.add_emod_right, Int.emod_eq_of_lt (by omega) (by omega)]; omega
    · rw [Int.emod_eq_of_lt (by omega) (by omega)]; omega
    · rw [← Int.sub_emod_right, Int.emod_eq_of_lt (by omega) (by omega)]; omega
  have hmod : ∀ r j, r ≤ 2 * (p / 2) → j < n → (j = g r ↔ (i + r) % n = (j + p / 2) % n) := by
    intro r j hr hj
    rw [hgr r hr, mod_two (w := i + r) (by omega), mod_two (w := j + p / 2) (by omega)]
    split_ifs <;> omega
  have hinj : ∀ r r', r ≤ 2 * (p / 2) → r' ≤ 2 * (p / 2) → g r = g r' → r = r' := by
    intro r r' hr hr'
    rw [hgr r hr, hgr r' hr']
    split_ifs <;> omega
  have e1 : ∑ r ∈ range (2 * (p / 2) + 1), c (i + r) * bspline (intKnot p) (n + 1) p r (grevilleShift p) =
      ∑ j ∈ range n, (∑ r ∈ range (2 * (p / 2) + 1), if j = g r then B r else 0) * x j := by
    rw [sum_congr rfl fun j _ => sum_mul _ _ (x j), sum_comm]
    refine sum_congr rfl fun r hr => ?_
    rw [mem_range] at hr
    have : ∀ j ∈ range n, (if j = g r then B r else 0) * x j = if j = g r then B r * x (g r) else 0 := by
      intro j _
      split_ifs with hj
      · rw [hj]
      · rw [zero_mul]
    rw [sum_congr rfl this, sum_ite_eq', if_pos (mem_range.2 (hgn r)), hc (i + r) (by omega), hB, hg]
    exact mul_comm _ _
  have e2 : ∑ j ∈ range n, ((∑ r ∈ range (2 * (p / 2) + 1), if j = g r then ε else 0) + ε') = (2 * (p / 2) + 1 : Nat) * ε + n * ε' := by
    rw [sum_add_distrib, sum_comm, sum_const, card_range, nsmul_eq_mul]
    rw [sum_congr rfl fun r _ => (sum_ite_eq' (range n) (g r) fun _ => ε).trans (if_pos (mem_range.2 (hgn r)))]
    rw [sum_const, card_range, nsmul_eq_mul]
  rw [e1, ← e2, sum_mul, ← sum_sub_distrib]
  refine (abs_sum_le_sum_abs _ _).trans (sum_le_sum fun j hj => ?_)
  rw [mem_range] at hj
  rw [← sub_mul, abs_mul]
  refine mul_le_mul ?_ (hx j hj) (abs_nonneg _) (add_nonneg (sum_nonneg fun r _ => by split_ifs <;> [exact hε; exact le_rfl]) hε')
  by_cases hex : ∃ r, r ≤ 2 * (p / 2) ∧ j = g r
  · obtain ⟨r0, hr0, hj0⟩ := hex
    have s1 : ∀ (F : Nat → Rat), ∑ r ∈ range (2 * (p / 2) + 1), (if j = g r then F r else 0) = F r0 := by
      intro F
      rw [sum_eq_single r0 (fun r hr hne => if_neg fun hjr => hne (hinj r r0 (by rw [mem_range] at hr; omega) hr0
        (hjr.symm.trans hj0))) (fun hne => absurd (mem_range.2 (by omega)) hne), if_pos hj0]
    rw [s1 B, s1 fun _ => ε, hB]
    have := (h i j hi hj).1 r0 hr0 ((hmod r0 j hr0 hj).1 hj0)
    exact this.trans (le_add_of_nonneg_right hε')
  · have s1 : ∀ (F : Nat → Rat), ∑ r ∈ range (2 * (p / 2) + 1), (if j = g r then F r else 0) = 0 := by
      intro F
      refine sum_eq_zero fun r hr => if_neg fun hjr => hex ⟨r, by rw [mem_range] at hr; omega, hjr⟩
    rw [s1 B, s1 fun _ => ε, sub_zero, zero_add]
    exact (h i j hi hj).2 fun r hr hrj => hex ⟨r, hr, (hmod r j hr hj).2 hrj⟩

/-- Specification: a builder of periodic splines on `n` uniform cells of `[a, b]` interpolates at the exact Greville points,
up to the residual of its solver and the errors `ε` and `ε'` of the entries of its matrix, and at the points where the
evaluator computes, up to `δ` more.  All errors are relative to the largest coefficient; the first `p` coefficients are
repeated at the end. -/
def UniformInterpolates (fl : Rat → Rat) (L : Lapack Rat) (ρ : Nat → (Nat → Nat → Rat) → Rat) (a b : Rat) (n p : Nat)
    (k : Knots) (B : Rounded.Builder) (ε ε' δ : Rat) : Prop :=
  ∀ D : Rat, 0 ≤ D → B.solver.ColsBound D → ∀ σ : Sched, σ.Valid →
    ∀ (junk : Nat → Nat → Rat) (spline vals : Mat Rat) (dmin dmax : Option (U64 × Mat Rat)),
      spline.rows = n + p → vals.rows = n → vals.cols = spline.cols → NoDerivs dmin → NoDerivs dmax →
      ∃ spline', B.apply fl L σ junk spline vals dmin dmax = .ok spline' ∧ spline'.rows = n + p ∧
        spline'.cols = spline.cols ∧ ∀ j, j < spline.cols → ∀ (c : Nat → Rat) (M : Rat), (c = fun J => spline'.val J j) →
          (∀ J, J < n + p → |c J| ≤ M) → (∀ J, J < p → c (J + n) = c J) ∧ ∀ i, i < n → ∀ κ : Rat,
            κ = n * B.solver.residual ρ (1 + ε + ε') D + (p + 1) * ε + n * ε' →
            |splineValue (uniformKnot a b n p) p n c (a + (i + if p % 2 = 0 then 1 / 2 else 0) * ((b - a) / n)) - vals.val i j| ≤
              κ * M ∧
            ∀ lower upper, ∃ y, k.eval fl true lower upper (k.grevillePoint fl i) (coefsOf (n + p) c) = .ok y ∧
              |y - vals.val i j| ≤ (κ + δ) * M

/-- From the matrix to the splines. -/
theorem uniform_interp (hfl : RoundsNearest fl) (hL : L.Backward ρ) {a b : Rat} (hab : a < b) {n p : Nat} (hp : 0 < p)
    (hpn : p < n) (hn : n ≤ 35000) (hres : |a| * n ≤ 2 ^ 46 * (b - a)) {k : Knots} (hk : k = mkKnots fl a b n p)
    {m : LinProb Rat} {ε ε' : Rat} (hε : 0 ≤ ε) (hε' : 0 ≤ ε')
    (em : Rounded.assemble fl (.uniform k true) (seg () 0 n) (uniformPoints fl k) = .ok (((p / 2 : Nat) : Int), m))
    (hsh : m.Shaped) (hsz : m.size.toNat = n) (hnear : CirculantNear p n m.shown ε ε') {σ : Sched} (hσ : σ.Valid)
    {B : Rounded.Builder} (hB : Rounded.Builder.mk' fl L σ (.uniform k true) (seg () 0 n) (uniformPoints fl k) = .ok B) :
    UniformInterpolates fl L ρ a b n p k B ε ε' (p * (p + 15) / 2 ^ 53 + 3 / 2 ^ 53 + 2 * p * positionError a b n p) := by
  intro D hD hcb σ' hσ' junk spline vals dmin dmax hs1 hv hc hmin hmax
  obtain ⟨eb, ed, ea, es⟩ := builderR_inv hB
  rw [ea] at em
  obtain ⟨eo, rfl⟩ := Prod.mk.inj (Res.ok.inj em)
  have kn : k.n = n := by rw [hk]; rfl
  have kp : k.p = p := by rw [hk]; rfl
  obtain ⟨s0, s1⟩ := shift_range p
  have hnb : (Spl.uniform k true).nbasis = .ok (BitVec.ofNat 64 n) := by rw [Spl.nbasis, kn]; rfl
  have hle1 : ∀ r, bspline (intKnot p) (n + 1) p r (grevilleShift p) ≤ 1 ∧
      0 ≤ bspline (intKnot p) (n + 1) p r (grevilleShift p) := by
    intro r
    have hcell : InCell (intKnot p) (n + 1) (grevilleShift p) p := by
      have : (0 : Rat) ≤ n := Nat.cast_nonneg n
      rw [InCell, if_pos (by linarith), intKnot, intKnot]
      push_cast
      constructor <;> linarith
    exact ⟨bspline_le_one (p := p) (intKnot_mono p) hcell (le_refl _) r, bspline_nonneg (intKnot_mono p) hcell p r⟩
  have hent : ∀ i j, i < B.matrix.size.toNat → j < B.matrix.size.toNat → |B.matrix.shown i j| ≤ 1 + ε + ε' := by
    intro i j hi hj
    rw [hsz] at hi hj
    obtain ⟨g1, g2⟩ := hnear i j hi hj
    by_cases hex : ∃ r, r ≤ 2 * (p / 2) ∧ (i + r) % n = (j + p / 2) % n
    · obtain ⟨r, hr, hrj⟩ := hex
      have h3 := abs_le.1 (g1 r hr hrj)
      obtain ⟨h4, h5⟩ := hle1 r
      rw [grevilleShift] at h4 h5
      rw [abs_le]
      constructor <;> linarith [h3.1, h3.2]
    · have := g2 fun r hr hrj => hex ⟨r, hr, hrj⟩
      linarith
  have hres' := C74_residual hfl.toRoundsAll hL hσ (show (0 : Rat) ≤ 1 + ε + ε' by linarith) hD B.matrix hsh (by omega) (by omega)
    hent B.solver es hcb
  rw [hsz] at hres'
  obtain ⟨rr, er, hrr⟩ := C39_required_rows B.matrix hsh
  rw [hsz] at hrr
  have hperB : B.bs.periodic = true := by rw [eb]; rfl
  obtain ⟨b', e', r', c', hcol⟩ := applyR_ok (p := p) (n := n) (nb := n) (off := p / 2)
    (by rw [eb]; exact kp) (by rw [eb]; exact hnb) (by omega) hp
    (by rw [hperB]; rfl) (by omega) (by rw [ed, seg_size (by omega), Nat.sub_zero])
    eo (by omega) (by omega) (fun _ => hpn) hres' er hrr hσ' junk (by omega) hv hc hmin hmax
  refine ⟨b', e', by omega, c', fun j hj c M hcM hM => ?_⟩
  obtain ⟨x, hx, hxc⟩ := hcol j hj
  have hcx : ∀ J, J < n + p → c J = x (((J : Int) - (p / 2 : Nat)) % (n : Int)).toNat := by
    intro J hJ
    rw [hcM]
    exact hxc J hJ
  have hM0 : 0 ≤ M := (abs_nonneg _).trans (hM 0 (by omega))
  have hxM : ∀ i, i < n → |x i| ≤ M := by
    intro i hi
    have h1 := hcx (i + p / 2) (by omega)
    rw [Int.emod_eq_of_lt (by omega) (by omega), show (((i + p / 2 : Nat) : Int) - (p / 2 : Nat)).toNat = i by omega] at h1
    rw [← h1]
    exact hM _ (by omega)
  refine ⟨fun J hJ => ?_, fun i hi κ hκ => ?_⟩
  · rw [hcx _ (by omega), hcx _ (by omega), ← Int.add_emod_right ((J : Int) - (p / 2 : Nat))]
    congr 3
    push_cast
    ring
  have hrow := hx i hi
  simp only [Bool.false_eq_true, if_false] at hrow
  have hκ0 := residual_nonneg hL (show (0 : Rat) ≤ 1 + ε + ε' by linarith) hD B.solver
  have hrow' : |∑ j ∈ range n, B.matrix.shown i j * x j - vals.val i j| ≤ n * B.solver.residual ρ (1 + ε + ε') D * M := by
    refine hrow.trans ?_
    have : ∑ k ∈ range n, |x k| ≤ ∑ _k ∈ range n, M := sum_le_sum fun k hk => hxM k (mem_range.1 hk)
    rw [sum_const, card_range, nsmul_eq_mul] at this
    calc _ ≤ B.solver.residual ρ (1 + ε + ε') D * (n * M) := mul_le_mul_of_nonneg_left this hκ0
      _ = _ := by ring
  have hcirc := circulant_spline hpn hε hε' hnear hM0 hxM hcx hi
  rw [← int_spline hp hi c] at hcirc
  have hp2 : ((2 * (p / 2) + 1 : Nat) : Rat) * ε ≤ (p + 1) * ε := by
    refine mul_le_mul_of_nonneg_right ?_ hε
    exact_mod_cast (show 2 * (p / 2) + 1 ≤ p + 1 by omega)
  have hsum : |∑ J ∈ range (n + p), c J * bspline (intKnot p) (n + 1) p J (i + grevilleShift p) - vals.val i j| ≤ κ * M := by
    have h1 := abs_sub_le (∑ J ∈ range (n + p), c J * bspline (intKnot p) (n + 1) p J (i + grevilleShift p))
      (∑ j ∈ range n, B.matrix.shown i j * x j) (vals.val i j)
    rw [abs_sub_comm] at hcirc
    have h2 := mul_le_mul_of_nonneg_right hp2 hM0
    rw [hκ]
    linarith
  refine ⟨?_, fun lower upper => ?_⟩
  · rw [uniform_splineValue hab hp (by omega) c]
    exact hsum
  · obtain ⟨y, ey, hy⟩ := uniform_evaluates hfl hab hp hpn hn hres hk lower upper c hM hi
    refine ⟨y, ey, ?_⟩
    have := abs_sub_le y (∑ J ∈ range (n + p), c J * bspline (intKnot p) (n + 1) p J (i + grevilleShift p)) (vals.val i j)
    linarith

/-- The validation of the grid, with rounding: no cell seems to hold more than two points. -/
theorem uniform_grid (hfl : RoundsNearest fl) {a b : Rat} (hab : a < b) {n p : Nat} (hp : 0 < p) (hpn : p < n)
    (hn : n ≤ 35000) (hres : |a| * n ≤ 2 ^ 46 * (b - a)) {k : Knots} (hk : k = mkKnots fl a b n p) :
    Rounded.checkValidGrid fl (.uniform k true) (seg () 0 n) (uniformPoints fl k) = .ok () := by
  have kn : k.n = n := by rw [hk]; rfl
  have kp : k.p = p := by rw [hk]; rfl
  obtain ⟨s0, s1⟩ := shift_range p
  have hnb : (Spl.uniform k true).nbasis = .ok (BitVec.ofNat 64 n) := by rw [Spl.nbasis, kn]; rfl
  have hcoord : ∀ i, i < n → uniformPoints fl k (el () i) = .ok (k.grevillePoint fl i) := by
    intro i hi
    rw [uniformPoints, NUBS.uid1_el, Res.ok_bind, BitVec.toNat_ofNat, Nat.mod_eq_of_lt (by omega)]
  have hknot : ∀ j, j ≤ n → Rounded.Spl.knot fl (.uniform k true) (el () (p + j)) = .ok (k.coordinate fl (p + j)) := by
    intro j hj
    rw [Spl.knot, NUBS.uid1_el, Res.ok_bind, BitVec.toNat_ofNat, Nat.mod_eq_of_lt (by omega)]
  have hpos : ∀ i, i < n → |k.grevillePoint fl i - k.rmin fl - (i + grevilleShift p) * k.step| ≤ 1 / 4 * k.step := by
    intro i hi
    obtain ⟨cl, o, -, -, -, -, -, -, -, h⟩ := point_cell hfl hab (by omega) (by omega) (by omega) hres hk hi
    exact h
  have hkn : ∀ j, j ≤ n → 0 < k.step ∧ |k.coordinate fl (p + j) - k.rmin fl - j * k.step| ≤ 1 / 8 * k.step := by
    intro j hj
    have := knots_coordinate hfl.toRoundsAll hab (by omega) (by omega) (show p ≤ 2 ^ 20 by omega) hres hj
    rw [← hk] at this
    exact ⟨this.1, this.2.1⟩
  obtain ⟨hs, -⟩ := hkn 0 (by omega)
  have hfirst : k.grevillePoint fl 0 < k.coordinate fl (p + 1) := by
    have h1 := (abs_le.1 (hpos 0 (by omega))).2
    have h2 := (abs_le.1 (hkn 1 (by omega)).2).1
    have h3 := mul_le_mul_of_nonneg_right s1 hs.le
    push_cast at h1 h2
    linarith
  have hnext : ∀ i, i + 2 < n → k.coordinate fl (p + (i + 1)) < k.grevillePoint fl (i + 2) := by
    intro i hi
    have h1 := (abs_le.1 (hpos (i + 2) (by omega))).1
    have h2 := (abs_le.1 (hkn (i + 1) (by omega)).2).2
    have h3 := mul_nonneg s0 hs.le
    push_cast at h1 h2
    linarith
  have edeg : Spl.degree (.uniform k true) = p := kp
  have efr : Spl.breakFront (.uniform k true) = el () p := by rw [Spl.breakFront, kp]; rfl
  have hcheck : ∀ c, c ≤ 2 → checkPointsInCell p c = .ok () := fun c hc => if_neg (by omega)
  have hadd : ∀ j : Nat, Elem.addInt (el () j) 1 = .ok (el () (j + 1)) := fun j => One.addInt_el j 1
  rw [Rounded.checkValidGrid, seg_size (by omega), Res.ok_bind, hnb, Res.ok_bind, Nat.sub_zero, if_neg (by simp), efr, hadd,
    Res.ok_bind, hostForEach1_seg (by omega) (by omega), Nat.sub_zero, edeg]
  obtain ⟨r, er, c, q, rfl, hinv⟩ := forLoop_inv (f := fun i => Rounded.gridStep fl (.uniform k true) (uniformPoints fl k) (el () (0 + i)))
    (fun i s => ∃ c q, s = (c, el () (p + (q + 1))) ∧
      ((i = 0 ∧ c = 0 ∧ q = 0) ∨ (i = q + 1 ∧ c = 1) ∨ (i = q + 2 ∧ c ≤ 2))) n 0 (0, el () (p + 1))
    ⟨0, 0, rfl, .inl ⟨rfl, rfl, rfl⟩⟩
    (by
      rintro i _ - hi ⟨c, q, rfl, hinv⟩
      rw [Nat.zero_add] at hi
      rw [Rounded.gridStep, Nat.zero_add, hcoord i hi, Res.ok_bind]
      dsimp only
      rw [hknot (q + 1) (by omega), Res.ok_bind, edeg, hadd, show p + (q + 1) + 1 = p + (q + 1 + 1) by omega]
      rcases hinv with ⟨rfl, rfl, rfl⟩ | ⟨rfl, rfl⟩ | ⟨rfl, hc⟩
      · rw [if_neg (not_lt.2 hfirst.le), if_neg hfirst.ne]
        exact ⟨_, rfl, 1, 0, rfl, .inr (.inl ⟨rfl, rfl⟩)⟩
      · split_ifs with c1 c2
        · rw [hcheck _ (by omega)]
          exact ⟨_, rfl, 1, q + 1, rfl, .inr (.inl ⟨rfl, rfl⟩)⟩
        · rw [hcheck _ (by omega)]
          exact ⟨_, rfl, 1, q + 1, rfl, .inr (.inl ⟨rfl, rfl⟩)⟩
        · exact ⟨_, rfl, 2, q, rfl, .inr (.inr ⟨rfl, le_rfl⟩)⟩
      · rw [if_pos (hnext q hi), hcheck _ hc]
        exact ⟨_, rfl, 1, q + 1, rfl, .inr (.inr ⟨rfl, by omega⟩)⟩)
  rw [er, Res.ok_bind]
  exact hcheck c (by omega)

/-- The constructor, given the assembly. -/
theorem uniform_constructs (hfl : RoundsNearest fl) {a b : Rat} (hab : a < b) {n p : Nat} (hp : 0 < p) (hpn : p < n)
    (hn : n ≤ 35000) (hres : |a| * n ≤ 2 ^ 46 * (b - a)) {k : Knots} (hk : k = mkKnots fl a b n p) {o : Int} {m : LinProb Rat}
    (em : Rounded.assemble fl (.uniform k true) (seg () 0 n) (uniformPoints fl k) = .ok (o, m)) (σ : Sched) :
    Rounded.Builder.mk' fl L σ (.uniform k true) (seg () 0 n) (uniformPoints fl k) =
      Rounded.setup fl L σ m >>= fun S => .ok ⟨.uniform k true, seg () 0 n, o, m, S⟩ := by
  rw [Rounded.Builder.mk', uniform_grid hfl hab hp hpn hn hres hk, Res.ok_bind, em]
  rfl

/-- Uniform periodic B-splines of even degree, whatever the rounding to nearest, with external solvers of small residual:
the construction of the builder fails only if the factorisation of the matrix does, and the builder interpolates.
Missing: more than 35000 cells (see `C54_periodic_overflow`); domains whose distance to the origin is large with respect to
their step (`hres`). -/
theorem C75_uniform_even_partial (hfl : RoundsNearest fl) (hL : L.Backward ρ) {a b : Rat} (hab : a < b) {n p : Nat}
    (hp : 0 < p) (hpe : p % 2 = 0) (hpn : p < n) (hn : n ≤ 35000) (hres : |a| * n ≤ 2 ^ 46 * (b - a)) {k : Knots}
    (hk : k = mkKnots fl a b n p) {ε δ : Rat} (hε : ε = p * (p + 13) / 2 ^ 53 + 2 * p * positionError a b n p)
    (hδ : δ = p * (p + 15) / 2 ^ 53 + 3 / 2 ^ 53 + 2 * p * positionError a b n p) :
    (∃ m, CirculantNear p n m.shown ε 0 ∧ ∀ σ : Sched,
      Rounded.Builder.mk' fl L σ (.uniform k true) (seg () 0 n) (uniformPoints fl k) =
        Rounded.setup fl L σ m >>= fun S => .ok ⟨.uniform k true, seg () 0 n, (p / 2 : Nat), m, S⟩) ∧
    ∀ σ : Sched, σ.Valid → ∀ B, Rounded.Builder.mk' fl L σ (.uniform k true) (seg () 0 n) (uniformPoints fl k) = .ok B →
      UniformInterpolates fl L ρ a b n p k B ε 0 δ := by
  obtain ⟨m, em, hsh, hsz, hnear⟩ := C70_uniform_even_partial hfl hab hp hpe hpn hn hres hk
  have hε0 : 0 ≤ ε := by
    have := (positionError_small hab hn hpn hres).1
    rw [hε]; positivity
  rw [← hε] at hnear
  refine ⟨⟨m, hnear, uniform_constructs hfl hab hp hpn hn hres hk em⟩, fun σ hσ B hB => ?_⟩
  rw [hδ]
  exact uniform_interp hfl hL hab hp hpn hn hres hk hε0 le_rfl em hsh hsz hnear hσ hB

/-- The same for odd degrees from three on.
Missing: degree one (`C70_degree_one_aborts`); degrees so large that the two largest values at a knot are not farther apart
than the errors (`hgap`); more than 35000 cells; steps that are not larger than `2⁻¹⁸` times the resolution (`hres`). -/
theorem C75_uniform_odd_partial (hfl : RoundsNearest fl) (hL : L.Backward ρ) {a b : Rat} (hab : a < b) {n p : Nat}
    (hp : 3 ≤ p) (hpo : p % 2 = 1) (hpn : p < n) (hn : n ≤ 35000) (hres : positionError a b n p ≤ 1 / 2 ^ 18) {k : Knots}
    (hk : k = mkKnots fl a b n p) {ε δ : Rat} (hε : ε = p * (p + 13) / 2 ^ 53 + 2 * p * positionError a b n p)
    (hδ : δ = p * (p + 15) / 2 ^ 53 + 3 / 2 ^ 53 + 2 * p * positionError a b n p)
    (hgap : 2 * ε < bspline (intKnot p) (n + 1) p (p / 2) 0 - bspline (intKnot p) (n + 1) p (p / 2 + 1) 0) :
    (∃ m, CirculantNear p n m.shown ε (1 / 2 ^ 51) ∧ ∀ σ : Sched,
      Rounded.Builder.mk' fl L σ (.uniform k true) (seg () 0 n) (uniformPoints fl k) =
        Rounded.setup fl L σ m >>= fun S => .ok ⟨.uniform k true, seg () 0 n, (p / 2 : Nat), m, S⟩) ∧
    ∀ σ : Sched, σ.Valid → ∀ B, Rounded.Builder.mk' fl L σ (.uniform k true) (seg () 0 n) (uniformPoints fl k) = .ok B →
      UniformInterpolates fl L ρ a b n p k B ε (1 / 2 ^ 51) δ := by
  have hd : 0 < b - a := sub_pos.2 hab
  have hres' : |a| * n ≤ 2 ^ 46 * (b - a) := by
    rw [← div_le_iff₀ hd]
    rw [positionError, div_le_iff₀ (by norm_num)] at hres
    have h1 : (0 : Rat) ≤ p := Nat.cast_nonneg p
    have h2 : (0 : Rat) ≤ n := Nat.cast_nonneg n
    linarith
  obtain ⟨m, em, hsh, hsz, hnear⟩ := C70_uniform_odd_partial hfl hab hp hpo hpn hn hres (by rw [← hε]; exact hgap) hk
  have hε0 : 0 ≤ ε := by
    have := (positionError_small hab hn hpn hres').1
    rw [hε]; positivity
  rw [← hε] at hnear
  refine ⟨⟨m, hnear, uniform_constructs hfl hab (by omega) hpn hn hres' hk em⟩, fun σ hσ B hB => ?_⟩
  rw [hδ]
  exact uniform_interp hfl hL hab (by omega) hpn hn hres' hk hε0 (by norm_num) em hsh hsz hnear hσ hB

/-- Uniform periodic cubic splines: the two largest values at a knot are `2/3` and `1/6`. -/
theorem C75_cubic_partial (hfl : RoundsNearest fl) (hL : L.Backward ρ) {a b : Rat} (hab : a < b) {n : Nat} (hn' : 3 < n)
    (hn : n ≤ 35000) (hres : |a| * n ≤ 2 ^ 32 * (b - a)) {k : Knots} (hk : k = mkKnots fl a b n 3) {σ : Sched} (hσ : σ.Valid)
    {B : Rounded.Builder} (hB : Rounded.Builder.mk' fl L σ (.uniform k true) (seg () 0 n) (uniformPoints fl k) = .ok B) :
    UniformInterpolates fl L ρ a b n 3 k B (48 / 2 ^ 53 + 6 * positionError a b n 3) (1 / 2 ^ 51)
      (57 / 2 ^ 53 + 6 * positionError a b n 3) := by
  obtain ⟨m, em, hsh, hsz, hnear⟩ := C70_cubic_partial hfl hab hn' hn hres hk
  have h4 : |a| * n ≤ 2 ^ 46 * (b - a) := by linarith [sub_pos.2 hab]
  have hε0 : 0 ≤ 48 / 2 ^ 53 + 6 * positionError a b n 3 := by
    have := (positionError_small hab hn hn' h4).1
    positivity
  have := uniform_interp hfl hL hab (by omega) hn' hn h4 hk hε0 (by norm_num) em hsh hsz hnear hσ hB
  push_cast at this
  rw [show (3 : Rat) * (3 + 15) / 2 ^ 53 + 3 / 2 ^ 53 = 57 / 2 ^ 53 by norm_num, show (2 : Rat) * 3 = 6 by norm_num] at this
  exact this

/-- Cubic splines: when the residual and the errors of the entries are small, the coefficients are at most four times the
largest value, so that the errors are relative to the values. -/
theorem C75_cubic_stable_partial (hfl : RoundsNearest fl) (hL : L.Backward ρ) {a b : Rat} (hab : a < b) {n : Nat} (hn' : 3 < n)
    (hn : n ≤ 35000) (hres : |a| * n ≤ 2 ^ 32 * (b - a)) {k : Knots} (hk : k = mkKnots fl a b n 3) {σ : Sched} (hσ : σ.Valid)
    {B : Rounded.Builder} (hB : Rounded.Builder.mk' fl L σ (.uniform k true) (seg () 0 n) (uniformPoints fl k) = .ok B)
    {D ε κ δ : Rat} (hD : 0 ≤ D) (hcb : B.solver.ColsBound D) (hε : ε = 48 / 2 ^ 53 + 6 * positionError a b n 3)
    (hκ : κ = n * B.solver.residual ρ (1 + ε + 1 / 2 ^ 51) D + 4 * ε + n * (1 / 2 ^ 51)) (hκ' : κ ≤ 1 / 12)
    (hδ : δ = 57 / 2 ^ 53 + 6 * positionError a b n 3) {σ' : Sched} (hσ' : σ'.Valid) (junk : Nat → Nat → Rat)
    (spline vals : Mat Rat) (hs : spline.rows = n + 3) (hv : vals.rows = n) (hc : vals.cols = spline.cols) :
    ∃ spline', B.apply fl L σ' junk spline vals none none = .ok spline' ∧
      ∀ j, j < spline.cols → ∀ V, (∀ i, i < n → |vals.val i j| ≤ V) → ∀ c : Nat → Rat, (c = fun J => spline'.val J j) →
        (∀ J, J < n + 3 → |c J| ≤ 4 * V) ∧ ∀ i, i < n →
          |splineValue (uniformKnot a b n 3) 3 n c (a + i * ((b - a) / n)) - vals.val i j| ≤ 4 * κ * V ∧
          ∀ lower upper, ∃ y, k.eval fl true lower upper (k.grevillePoint fl i) (coefsOf (n + 3) c) = .ok y ∧
            |y - vals.val i j| ≤ 4 * (κ + δ) * V := by
  have h4 : |a| * n ≤ 2 ^ 46 * (b - a) := by linarith [sub_pos.2 hab]
  have hΔ := (positionError_small hab hn hn' h4).1
  obtain ⟨spline', e, -, -, hcol⟩ := C75_cubic_partial hfl hL hab hn' hn hres hk hσ hB D hD hcb σ' hσ' junk spline vals none none
    hs hv hc (fun _ _ h => by cases h) (fun _ _ h => by cases h)
  refine ⟨spline', e, fun j hj V hV c hcs => ?_⟩
  obtain ⟨J0, hJ0, hmax⟩ := exists_max_image (range (n + 3)) (fun J => |c J|) ⟨0, mem_range.2 (by omega)⟩
  rw [mem_range] at hJ0
  obtain ⟨M, hM⟩ : ∃ M, M = |c J0| := ⟨_, rfl⟩
  have hcM : ∀ J, J < n + 3 → |c J| ≤ M := fun J hJ => by rw [hM]; exact hmax J (mem_range.2 hJ)
  have hM0 : 0 ≤ M := by rw [hM]; exact abs_nonneg _
  obtain ⟨hper, hint⟩ := hcol j hj c M hcs hcM
  have hκ2 : κ = n * B.solver.residual ρ (1 + (48 / 2 ^ 53 + 6 * positionError a b n 3) + 1 / 2 ^ 51) D +
      ((3 : Nat) + 1) * (48 / 2 ^ 53 + 6 * positionError a b n 3) + n * (1 / 2 ^ 51) := by
    rw [hκ, hε]; push_cast; ring
  have hint' : ∀ i, i < n → |splineValue (uniformKnot a b n 3) 3 n c (a + i * ((b - a) / n)) - vals.val i j| ≤ κ * M ∧
      ∀ lower upper, ∃ y, k.eval fl true lower upper (k.grevillePoint fl i) (coefsOf (n + 3) c) = .ok y ∧
        |y - vals.val i j| ≤ (κ + δ) * M := by
    intro i hi
    have := hint i hi κ hκ2
    rw [if_neg (by norm_num), add_zero] at this
    rw [hδ]
    exact this
  have hval : ∀ i, i < n → splineValue (uniformKnot a b n 3) 3 n c (a + i * ((b - a) / n)) =
      c i * (1 / 6) + c (i + 1) * (2 / 3) + c (i + 2) * (1 / 6) := by
    intro i hi
    have h1 := int_spline (p := 3) (by norm_num) hi c ((n : Rat) + 1)
    have hsh : grevilleShift 3 = 0 := if_neg (by norm_num)
    rw [hsh, add_zero] at h1
    have ht : ∀ k j : Nat, intKnot 3 (k + j) = intKnot 3 k + (j : Rat) * 1 := by
      intro k j; rw [intKnot, intKnot]; push_cast; ring
    rw [uniform_splineValue hab (by norm_num) (by omega) c, h1]
    simp only [Nat.reduceDiv, Nat.reduceMul, Nat.reduceAdd, sum_range_succ, sum_range_zero, zero_add, Nat.add_zero]
    rw [bspline_cardinal one_pos ht, bspline_cardinal one_pos ht, bspline_cardinal one_pos ht]
    norm_num [cardinal, intKnot]
  have hV0 : 0 ≤ V := (abs_nonneg _).trans (hV 0 (by omega))
  have hMV : M ≤ 4 * V := by
    obtain ⟨i, hi, hc1⟩ : ∃ i, i < n ∧ |c (i + 1)| = M := by
      rcases Nat.eq_zero_or_pos J0 with h | h
      · refine ⟨n - 1, by omega, ?_⟩
        rw [hM, h, show n - 1 + 1 = 0 + n by omega, hper 0 (by norm_num)]
      · by_cases h' : J0 ≤ n
        · exact ⟨J0 - 1, by omega, by rw [hM, show J0 - 1 + 1 = J0 by omega]⟩
        · refine ⟨J0 - n - 1, by omega, ?_⟩
          rw [hM, show J0 - n - 1 + 1 = J0 - n by omega]
          have := hper (J0 - n) (by omega)
          rw [show J0 - n + n = J0 by omega] at this
          rw [this]
    have h1 := (hint' i hi).1
    rw [hval i hi] at h1
    have h2 := abs_le.1 h1
    have h3 := abs_le.1 (hcM i (by omega))
    have h5 := abs_le.1 (hcM (i + 2) (by omega))
    have h6 := abs_le.1 (hV i hi)
    have h7 : κ * M ≤ 1 / 12 * M := mul_le_mul_of_nonneg_right hκ' hM0
    rcases abs_cases (c (i + 1)) with ⟨h8, -⟩ | ⟨h8, -⟩ <;> rw [h8] at hc1 <;> linarith [h2.1, h2.2, h3.1, h3.2, h5.1, h5.2, h6.1, h6.2]
  have hκ0 : 0 ≤ κ := by
    have hε0 : 0 ≤ ε := by rw [hε]; positivity
    have h1 := residual_nonneg hL (show (0 : Rat) ≤ 1 + ε + 1 / 2 ^ 51 by positivity) hD B.solver
    rw [hκ]
    positivity
  have hδ0 : 0 ≤ δ := by rw [hδ]; positivity
  refine ⟨fun J hJ => (hcM J hJ).trans hMV, fun i hi => ⟨?_, fun lower upper => ?_⟩⟩
  · refine (hint' i hi).1.trans ((mul_le_mul_of_nonneg_left hMV hκ0).trans (le_of_eq (by ring)))
  · obtain ⟨y, ey, hy⟩ := (hint' i hi).2 lower upper
    exact ⟨y, ey, hy.trans ((mul_le_mul_of_nonneg_left hMV (by positivity)).trans (le_of_eq (by ring)))⟩

/-! ## Cases -/

/-- The determinant, by expansion along the first row. -/
def laplace : Nat → (Nat → Nat → Rat) → Rat
  | 0, _ => 1
  | n + 1, A => ∑ j ∈ range (n + 1), (-1) ^ j * A 0 j * laplace n fun r c => A (r + 1) (if c < j then c else c + 1)

/-- The cofactors, transposed. -/
def cofactors (n : Nat) (A : Nat → Nat → Rat) (i j : Nat) : Rat :=
  (-1) ^ (i + j) * laplace (n - 1) fun r c => A (if r < j then r else r + 1) (if c < i then c else c + 1)

/-- Cramer's rule; matrices are accepted when the product with the cofactors is right. -/
def cramerLapack : Lapack Rat where
  regular n A := decide (laplace n A ≠ 0 ∧ ∀ i, i < n → ∀ j, j < n →
    ∑ k ∈ range n, A i k * cofactors n A k j = (if i = j then laplace n A else 0) ∧
    ∑ k ∈ range n, cofactors n A i k * A k j = (if i = j then laplace n A else 0))
  posDef _ _ := false
  solve t n A b j := (∑ k ∈ range n, (if t then cofactors n A k j else cofactors n A j k) * b k) / laplace n A

theorem cramerLapack_backward : cramerLapack.Backward fun _ _ => 0 where
  nonneg _ _ := le_rfl
  solve t n A b h := by
    obtain ⟨h0, h1⟩ : laplace n A ≠ 0 ∧ ∀ i, i < n → ∀ j, j < n →
        ∑ k ∈ range n, A i k * cofactors n A k j = (if i = j then laplace n A else 0) ∧
        ∑ k ∈ range n, cofactors n A i k * A k j = (if i = j then laplace n A else 0) := by
      rcases h with h | h
      · exact of_decide_eq_true h
      · cases h
    intro i hi
    rw [zero_mul]
    refine le_of_eq (abs_eq_zero.2 (sub_eq_zero.2 ?_))
    have e : ∀ j, cramerLapack.solve t n A b j =
      (∑ k ∈ range n, (if t then cofactors n A k j else cofactors n A j k) * b k) / laplace n A := fun _ => rfl
    have h2 : ∀ k, k < n → (∑ j ∈ range n, (if t = true then A j i else A i j) *
        (if t = true then cofactors n A k j else cofactors n A j k)) = if i = k then laplace n A else 0 := by
      intro k hk
      cases t
      · exact (h1 i hi k hk).1
      · have := (h1 k hk i hi).2
        simp only [if_true, eq_comm (a := i)]
        rw [← this]
        exact sum_congr rfl fun j _ => mul_comm _ _
    calc ∑ j ∈ range n, (if t = true then A j i else A i j) * cramerLapack.solve t n A b j
        = ∑ j ∈ range n, ∑ k ∈ range n, (if t = true then A j i else A i j) *
            (if t = true then cofactors n A k j else cofactors n A j k) * (b k / laplace n A) := by
          refine sum_congr rfl fun j _ => ?_
          rw [e, sum_div, mul_sum]
          exact sum_congr rfl fun k _ => by ring
      _ = ∑ k ∈ range n, (if i = k then laplace n A else 0) * (b k / laplace n A) := by
          rw [sum_comm]
          refine sum_congr rfl fun k hk => ?_
          rw [← sum_mul, h2 k (mem_range.1 hk)]
      _ = b i := by
          simp only [ite_mul, zero_mul, sum_ite_eq, mem_range, hi, if_true]
          rw [mul_div_assoc', mul_div_cancel_left₀ _ h0]

/-- The hypotheses are met by periodic quadratic splines on three cells of `[0, 1]`, whose builder interpolates. -/
example : ∃ B, Rounded.Builder.mk' Spec.round53 cramerLapack seqSched (.uniform (mkKnots Spec.round53 0 1 3 2) true) (seg () 0 3)
    (uniformPoints Spec.round53 (mkKnots Spec.round53 0 1 3 2)) = .ok B ∧ (∃ D, 0 ≤ D ∧ B.solver.ColsBound D) ∧
    UniformInterpolates Spec.round53 cramerLapack (fun _ _ => 0) 0 1 3 2 (mkKnots Spec.round53 0 1 3 2) B
      ((2 : Nat) * ((2 : Nat) + 13) / 2 ^ 53 + 2 * (2 : Nat) * positionError 0 1 3 2) 0
      ((2 : Nat) * ((2 : Nat) + 15) / 2 ^ 53 + 3 / 2 ^ 53 + 2 * (2 : Nat) * positionError 0 1 3 2) := by
  have hB : (match Rounded.Builder.mk' Spec.round53 cramerLapack seqSched (.uniform (mkKnots Spec.round53 0 1 3 2) true) (seg () 0 3)
      (uniformPoints Spec.round53 (mkKnots Spec.round53 0 1 3 2)) with | .ok _ => true | _ => false) = true := by decide +kernel
  split at hB
  case h_2 => cases hB
  case h_1 B eB =>
    refine ⟨B, eB, C74_bound_exists B.solver, ?_⟩
    exact (C75_uniform_even_partial Spec.round53_nearest cramerLapack_backward (a := 0) (b := 1) (by norm_num) (n := 3) (p := 2)
      (by norm_num) rfl (by norm_num) (by norm_num) (by norm_num) rfl rfl rfl).2 seqSched
      ⟨fun _ => List.Perm.refl _, fun _ => List.Perm.refl _⟩ B eB

/-- The hypotheses of `C75_cubic_stable_partial` are met by the splines on four cells of `[0, 1]`. -/
example : ∃ B, Rounded.Builder.mk' Spec.round53 cramerLapack seqSched (.uniform (mkKnots Spec.round53 0 1 4 3) true) (seg () 0 4)
    (uniformPoints Spec.round53 (mkKnots Spec.round53 0 1 4 3)) = .ok B ∧ B.solver.ColsBound 0 ∧
    (4 : Nat) * B.solver.residual (fun _ _ => 0) (1 + (48 / 2 ^ 53 + 6 * positionError 0 1 4 3) + 1 / 2 ^ 51) 0 +
      4 * (48 / 2 ^ 53 + 6 * positionError 0 1 4 3) + (4 : Nat) * (1 / 2 ^ 51) ≤ 1 / 12 := by
  have hB : (match Rounded.Builder.mk' Spec.round53 cramerLapack seqSched (.uniform (mkKnots Spec.round53 0 1 4 3) true) (seg () 0 4)
      (uniformPoints Spec.round53 (mkKnots Spec.round53 0 1 4 3)) with
      | .ok B => (match B.solver with | .getrs _ _ => true | _ => false) | _ => false) = true := by decide +kernel
  split at hB
  case h_2 => cases hB
  case h_1 B eB =>
    refine ⟨B, eB, ?_⟩
    cases hS : B.solver <;> rw [hS] at hB <;> simp only [Bool.false_eq_true] at hB
    refine ⟨trivial, ?_⟩
    simp only [Solver.residual, positionError]
    norm_num

end DDC.Props
