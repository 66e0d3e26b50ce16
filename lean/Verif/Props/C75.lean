import Verif.Model.RoundedApply
import Verif.Props.C41
import Verif.Props.C47
import Verif.Props.C70
import Verif.Props.C74

/-!
# C75 — spline interpolation with rounding
-/

namespace DDC.Props

open One Dom LinProb Rounded Spec Finset

variable {fl : Rat → Rat} {L : Lapack Rat} {ρ : Nat → (Nat → Nat → Rat) → Rat}

/-- No derivative is given. -/
def NoDerivs (d : Option (U64 × Mat Rat)) : Prop := ∀ f v, d = some (f, v) → v.rows = 0

theorem checkDerivs_none {odd : Nat} {d : Option (U64 × Mat Rat)} (h : NoDerivs d) :
    DDC.Builder.checkDerivs .greville odd d = .ok () := by
  match d, h with
  | none, _ => rfl
  | some (f, v), h => simp [DDC.Builder.checkDerivs, h f v rfl]

/-- `operator()`, for a solver with the residual `κ` for the matrix `G`. -/
theorem applyR_ok {B : Rounded.Builder} {p n nb off extra : Nat} (hdeg : B.bs.degree = p)
    (hnbs : B.bs.nbasis = .ok (BitVec.ofNat 64 nb)) (hsm : n + 3 * p < 2 ^ 31) (hp : 0 < p)
    (hnb : nb = if B.bs.periodic then n else n + p) (hn : 0 < n)
    (hD : Dom.size B.dom = .ok (BitVec.ofNat 64 nb)) (eoff : B.offset = off) (hoff : off ≤ p) (hnoff : nb + off ≤ n + p)
    (hper : B.bs.periodic = true → p < n) {G : Nat → Nat → Rat} {κ : Rat}
    (hsolve : SolvesSystemWithin fl L B.solver nb extra G κ) {rr : U64} (er : B.matrix.requiredRows = .ok rr)
    (hrr : rr.toNat = nb + extra) {σ : Sched} (hσ : σ.Valid) (junk : Nat → Nat → Rat) {spline vals : Mat Rat}
    {dmin dmax : Option (U64 × Mat Rat)} (hs : spline.rows = n + p) (hv : vals.rows = nb) (hc : vals.cols = spline.cols)
    (hmin : NoDerivs dmin) (hmax : NoDerivs dmax) :
    ∃ spline', B.apply fl L σ junk spline vals dmin dmax = .ok spline' ∧ spline'.rows = n + p ∧
      spline'.cols = spline.cols ∧ ∀ j, j < spline.cols → ∃ x : Nat → Rat,
        SolvesWithin false nb G κ x (fun k => vals.val k j) ∧
        (∀ J, J < n + p → spline'.val J j = x (((J : Int) - off) % (nb : Int)).toNat) := by
  have hnb0 : 0 < nb := by split_ifs at hnb <;> omega
  have en : ∀ x, x < 2 ^ 64 → (BitVec.ofNat 64 x).toNat = x := fun x hx => by
    rw [BitVec.toNat_ofNat, Nat.mod_eq_of_lt hx]
  rw [Rounded.Builder.apply, hdeg, hD, Res.ok_bind, en nb (by omega), decide_eq_true hv, Res.guardAbort_true, Res.ok_bind,
    decide_eq_true hc, Res.guardAbort_true, Res.ok_bind]
  by_cases hz : vals.cols = 0
  · rw [if_pos hz]
    exact ⟨spline, rfl, hs, rfl, fun j hj => by omega⟩
  rw [if_neg hz, hnbs, Res.ok_bind, decide_eq_true rfl, Res.guardAbort_true, Res.ok_bind, checkDerivs_none hmin,
    Res.ok_bind, checkDerivs_none hmax, Res.ok_bind, eoff]
  have e2 : DDC.Builder.fillRows 0 off spline = .ok ⟨spline.rows, spline.cols, fun r c =>
      if 0 ≤ r ∧ (r : Int) < (0 : Nat) + (off : Int) then 0 else spline.val r c⟩ :=
    if_pos (by omega)
  obtain ⟨b2, hb2⟩ : ∃ b2 : Mat Rat, b2 = ⟨spline.rows, spline.cols, fun r c =>
      if 0 ≤ r ∧ (r : Int) < (0 : Nat) + (off : Int) then 0 else spline.val r c⟩ := ⟨_, rfl⟩
  rw [← hb2] at e2
  have r2 : b2.rows = n + p := by rw [hb2]; exact hs
  have c2 : b2.cols = spline.cols := by rw [hb2]
  have e3 : DDC.Builder.putRows off vals b2 = .ok ⟨b2.rows, b2.cols, fun r c =>
      if (off : Int) ≤ r ∧ (r : Int) < (off : Int) + vals.rows then vals.val ((r : Int) - off).toNat c else b2.val r c⟩ :=
    if_pos (by omega)
  obtain ⟨b3, hb3⟩ : ∃ b3 : Mat Rat, b3 = ⟨b2.rows, b2.cols, fun r c =>
      if (off : Int) ≤ r ∧ (r : Int) < (off : Int) + vals.rows then vals.val ((r : Int) - off).toNat c else b2.val r c⟩ :=
    ⟨_, rfl⟩
  rw [← hb3] at e3
  have r3 : b3.rows = n + p := by rw [hb3]; exact r2
  have c3 : b3.cols = spline.cols := by rw [hb3]; exact c2
  have v3 : ∀ k c, k < nb → b3.val (k + off) c = vals.val k c := by
    intro k c hk
    rw [hb3]
    dsimp only
    rw [if_pos (by omega)]
    congr 1
    omega
  rw [e2, Res.ok_bind, e3, Res.ok_bind]
  obtain ⟨b5, e5, r5, c5, v5⟩ := toTr_ok hσ (nb := nb) (off := off) (spline := b3) (tr := ⟨rr.toNat, vals.cols, junk⟩)
    (by omega) (by dsimp only; omega) (by dsimp only; omega) (by omega)
  obtain ⟨b6, e6, r6, c6, s6, -⟩ := hsolve σ hσ false 0 b5 (by dsimp only at r5; omega)
  dsimp only at r5 c5 v5
  obtain ⟨b7, e7, r7, c7, v7⟩ := fromTr_ok hσ (nb := nb) (off := off) (spline := b3) (tr := b6)
    (by omega) (by omega) (by omega) (by omega)
  rw [er, Res.ok_bind, e5, Res.ok_bind, hrr, e6, Res.ok_bind, e7, Res.ok_bind]
  have hsys : ∀ j, j < spline.cols → SolvesWithin false nb G κ (fun i => b6.val i j) (fun k => vals.val k j) := by
    intro j hj i hi
    have := s6 j (by omega) i hi
    simp only [Nat.zero_add] at this
    rwa [v5 i j (by omega) hi, v3 i j hi] at this
  cases hpe : B.bs.periodic
  · rw [hpe] at hnb
    simp only [Bool.false_eq_true, if_false] at hnb
    obtain rfl : off = 0 := by omega
    refine ⟨b7, rfl, by omega, by omega, fun j hj => ⟨_, hsys j hj, fun J hJ => ?_⟩⟩
    rw [v7 J j (by omega), if_pos (by omega), Int.emod_eq_of_lt (by omega) (by omega)]
    congr 1
  · have hpn := hper hpe
    rw [hpe] at hnb
    simp only [if_true] at hnb
    subst hnb
    obtain ⟨b8, e8, r8, c8, v8⟩ := duplicate_ok hσ (p := p) (nb := nb) (off := off) (b := b7) (by omega) hoff
      (by omega) (by omega)
    refine ⟨b8, e8, by omega, by omega, fun j hj => ⟨_, hsys j hj, fun J hJ => ?_⟩⟩
    rw [v8 J j (by omega) hJ]
    split_ifs with ca cb
    · rw [v7 _ j (by omega), if_pos (by omega), show (J : Int) - off = (J + nb - off) + nb * (-1) by ring,
        Int.add_mul_emod_self_left, Int.emod_eq_of_lt (by omega) (by omega)]
      congr 1
      omega
    · rw [v7 _ j (by omega), if_pos (by omega), Int.emod_eq_of_lt (by omega) (by omega)]
      congr 1
      omega
    · rw [v7 _ j (by omega), if_pos (by omega), show (J : Int) - off = (J - nb - off) + nb * 1 by ring,
        Int.add_mul_emod_self_left, Int.emod_eq_of_lt (by omega) (by omega)]
      congr 1
      omega

/-- What the constructor has done when it succeeds. -/
theorem builderR_inv {σ : Sched} {bs : Spl} {dom : Dom Unit} {coord : Elem Unit → Res Rat} {B : Rounded.Builder}
    (hB : Rounded.Builder.mk' fl L σ bs dom coord = .ok B) : B.bs = bs ∧ B.dom = dom ∧
      Rounded.assemble fl bs dom coord = .ok (B.offset, B.matrix) ∧ Rounded.setup fl L σ B.matrix = .ok B.solver := by
  rw [Rounded.Builder.mk'] at hB
  obtain ⟨-, -, hB⟩ := Res.bind_eq_ok.1 hB
  obtain ⟨⟨o, m⟩, e1, hB⟩ := Res.bind_eq_ok.1 hB
  obtain ⟨S, e2, hB⟩ := Res.bind_eq_ok.1 hB
  obtain rfl := Res.ok.inj hB
  exact ⟨rfl, rfl, e1, e2⟩

/-- The values of B-splines are at most one. -/
theorem bspline_le_one {t : Nat → Rat} (ht : Monotone t) {b x : Rat} {c p : Nat} (hc : InCell t b x c) (hp : p ≤ c) (j : Nat) :
    bspline t b p j x ≤ 1 := by
  obtain ⟨m, rfl⟩ : ∃ m, c = m + p := ⟨c - p, by omega⟩
  by_cases h : m ≤ j ∧ j ≤ m + p
  · rw [← bspline_sum ht hc p m rfl]
    have := single_le_sum (f := fun r => bspline t b p (m + r) x) (fun r _ => bspline_nonneg ht hc p (m + r))
      (mem_range.2 (show j - m < p + 1 by omega))
    simpa only [Nat.add_sub_cancel' h.1] using this
  · rw [bspline_eq_piece ht hc, piece_zero _ _ _ _ (by omega)]
    simp

/-- Non-uniform B-splines that are not periodic, closures `GREVILLE`, whatever the rounding, on points each of which is
between the inner knots of its B-spline, with external solvers of small residual: once the builder is constructed, for any
data, any number of columns and any order of the parallel loops, `operator()` computes the coefficients of a spline that
takes the given values at the interpolation points, up to the residual of the linear solver and to the rounding of the
entries of the matrix, and the evaluator gives back the values, too.
Missing: the closures `HERMITE` (rows of derivatives); sets of break points with fewer cells than the degree minus two. -/
theorem C75_non_uniform_partial (hfl : RoundsAll fl) (hL : L.Backward ρ) (p : Nat) (hp : 0 < p) (hp' : p ≤ 2 ^ 20)
    (breaks : List Rat) (h2 : 2 ≤ breaks.length) (hb : ∀ i (h : i + 1 < breaks.length), breaks[i] < breaks[i + 1])
    (hpn : p ≤ breaks.length + 1) (hs : breaks.length + 3 * p < 2 ^ 31) {n N : Nat} (hn : n = breaks.length - 1)
    (hN : N = n + p) :
    ∃ u t, NUBS.mk' p false breaks = .ok u ∧ NUBS.KnotsOf p false breaks t ∧
      ∀ (s : Nat) (coord : Elem Unit → Res Rat) (X : Nat → Rat), s + N < 2 ^ 31 →
        (∀ k, k < N → coord (el () (s + k)) = .ok (X k)) → Interlaced t p n X →
        ∀ σ : Sched, σ.Valid → ∀ B, Rounded.Builder.mk' fl L σ (.nonUniform u) (seg () s (s + N)) coord = .ok B →
          ∀ D : Rat, 0 ≤ D → B.solver.ColsBound D → ∀ σ' : Sched, σ'.Valid →
          ∀ (junk : Nat → Nat → Rat) (spline vals : Mat Rat) (dmin dmax : Option (U64 × Mat Rat)),
            spline.rows = N → vals.rows = N → vals.cols = spline.cols → NoDerivs dmin → NoDerivs dmax →
            ∃ spline', B.apply fl L σ' junk spline vals dmin dmax = .ok spline' ∧ spline'.rows = N ∧
              spline'.cols = spline.cols ∧ ∀ j, j < spline.cols → ∀ (c : Nat → Rat) (M : Rat), (c = fun J => spline'.val J j) →
                (∀ J, J < N → |c J| ≤ M) → ∀ i, i < N →
                  (∃ y, Rounded.evalNoBc fl u (X i) (coefsOf N c) = .ok y ∧
                    |y - vals.val i j| ≤ (N * B.solver.residual ρ 2 D + 9 / 8 * (p + 2) / 2 ^ 53) * M) ∧
                  |splineValue t p n c (X i) - vals.val i j| ≤ (N * B.solver.residual ρ 2 D + 8 * p / 2 ^ 53) * M := by
  obtain ⟨u, t, e, hk, hm, hu, hper, hmain⟩ := nubs_matrix hfl p hp hp' breaks h2 hb hpn (by omega)
  rw [← hn] at hu hmain
  rw [← hN] at hmain
  have hn0 := hu.cells
  refine ⟨u, t, e, hk, fun s coord X hsN hco hX σ hσ B hB D hD hcb σ' hσ' junk spline vals dmin dmax hs1 hv hc hmin hmax => ?_⟩
  obtain ⟨eb, ed, ea, es⟩ := builderR_inv hB
  obtain ⟨m, em, hsh, hsz, hnear, hev⟩ := hmain s coord X hsN hco hX
  rw [ea] at em
  obtain ⟨eo, rfl⟩ := Prod.mk.inj (Res.ok.inj em)
  have hnb : (Spl.nonUniform u).nbasis = .ok (BitVec.ofNat 64 N) := by
    rw [show (Spl.nonUniform u).nbasis = u.nbasis from rfl, nubs_nbasis hu, hper, hN]; rfl
  have hst : ∀ c, p ≤ c → c < p + n → t c < t (c + 1) := by
    intro c c1 c2
    have a1 := hk.inner (c - p) (by omega)
    have a2 := hk.inner (c - p + 1) (by omega)
    rw [show p + (c - p) = c by omega] at a1
    rw [show p + (c - p + 1) = c + 1 by omega] at a2
    rw [a1, a2]
    exact hb _ _
  have hent : ∀ i j, i < B.matrix.size.toNat → j < B.matrix.size.toNat → |B.matrix.shown i j| ≤ 2 := by
    intro i j hi hj
    rw [hsz] at hi hj
    obtain ⟨m, -, hm1, hm2, -⟩ := nubs_valuesR hfl hu hp' (hst p (le_refl _) (by omega))
      (by have := hst (p + n - 1) (by omega) (by omega); rwa [show p + n - 1 + 1 = p + n by omega] at this) (X i)
      (hX.1 i (by omega)).1 (hX.1 i (by omega)).2
    have h1 := bspline_le_one (p := p) hm hm2 (by omega) j
    have h0 := bspline_nonneg hm hm2 p j
    have h3 := hnear i j hi hj
    have h4 : (8 * p / 2 ^ 53 : Rat) ≤ 1 := by
      have : (p : Rat) ≤ 1048576 := by exact_mod_cast hp'
      rw [div_le_iff₀ (by norm_num)]
      norm_num
      linarith
    have h5 : 8 * p / 2 ^ 53 * bspline t (t (p + n)) p j (X i) ≤ 1 * 1 := mul_le_mul h4 h1 h0 (by norm_num)
    rw [abs_le] at h3 ⊢
    constructor <;> linarith [h3.1, h3.2]
  have hres := C74_residual hfl hL hσ (show (0 : Rat) ≤ 2 by norm_num) hD B.matrix hsh (by omega) (by omega) hent B.solver es hcb
  rw [hsz] at hres
  obtain ⟨rr, er, hrr⟩ := C39_required_rows B.matrix hsh
  rw [hsz] at hrr
  have hperB : B.bs.periodic = false := by rw [eb]; exact hper
  obtain ⟨b', e', r', c', hcol⟩ := applyR_ok (p := p) (n := n) (nb := N) (off := 0)
    (by rw [eb]; exact hu.degree) (by rw [eb]; exact hnb) (by omega) hp
    (by rw [hperB]; simpa using hN) hn0 (by rw [ed, seg_size (by omega), Nat.add_sub_cancel_left])
    eo (by omega) (by omega) (fun h => by rw [hperB] at h; cases h) hres er hrr hσ' junk (by omega) hv hc hmin hmax
  refine ⟨b', e', by omega, c', fun j hj c M hcM hM i hi => ?_⟩
  obtain ⟨x, hx, hxc⟩ := hcol j hj
  have hcx : ∀ J, J < N → c J = x J := by
    intro J hJ
    rw [hcM]
    dsimp only
    rw [hxc J (by omega), Nat.cast_zero, sub_zero, Int.emod_eq_of_lt (by omega) (by omega)]
    rfl
  have hrow := hx i hi
  simp only [Bool.false_eq_true, if_false] at hrow
  rw [sum_congr rfl fun k hk => congrArg (B.matrix.shown i k * ·) (hcx k (mem_range.1 hk)).symm,
    sum_congr rfl fun k hk => congrArg abs (hcx k (mem_range.1 hk)).symm] at hrow
  have hκ := residual_nonneg hL (show (0 : Rat) ≤ 2 by norm_num) hD B.solver
  have hrow' : |∑ k ∈ range N, B.matrix.shown i k * c k - vals.val i j| ≤ N * B.solver.residual ρ 2 D * M := by
    refine hrow.trans ?_
    have : ∑ k ∈ range N, |c k| ≤ ∑ _k ∈ range N, M := sum_le_sum fun k hk => hM k (mem_range.1 hk)
    rw [sum_const, card_range, nsmul_eq_mul] at this
    calc _ ≤ B.solver.residual ρ 2 D * (N * M) := mul_le_mul_of_nonneg_left this hκ
      _ = _ := by ring
  obtain ⟨⟨y, ey, hy⟩, hsp⟩ := hev c M hM i hi _ _ hrow'
  refine ⟨⟨y, ey, hy.trans (le_of_eq ?_)⟩, hsp.trans (le_of_eq ?_)⟩ <;> ring

/-- For non-uniform B-splines, that store their knots, the validation of the grid does not round. -/
theorem checkValidGridR_eq {u : NUBS Rat} {dom : Dom Unit} {coord : Elem Unit → Res Rat} :
    Rounded.checkValidGrid fl (.nonUniform u) dom coord = DDC.checkValidGrid (.nonUniform u) .greville .greville dom coord := by
  rw [Rounded.checkValidGrid, DDC.checkValidGrid]
  have h0 : ∀ d, BitVec.ofNat 64 (Closure.greville.equations d) = 0#64 := fun _ => rfl
  simp only [h0, BitVec.sub_zero]
  rfl

/-- The constructor: on points that increase, as many as B-splines, each between the inner knots of its B-spline, and
without overfull cell, nothing fails but the factorisation of the matrix. -/
theorem C75_constructs (hfl : RoundsAll fl) (p : Nat) (hp : 0 < p) (hp' : p ≤ 2 ^ 20) (hsf : SmallFactors p)
    (breaks : List Rat) (h2 : 2 ≤ breaks.length) (hb : ∀ i (h : i + 1 < breaks.length), breaks[i] < breaks[i + 1])
    (hpn : p ≤ breaks.length + 1) (hs : breaks.length + 3 * p < 2 ^ 31) {n N : Nat} (hn : n = breaks.length - 1)
    (hN : N = n + p) :
    ∃ u t, NUBS.mk' p false breaks = .ok u ∧ NUBS.KnotsOf p false breaks t ∧
      ∀ (s : Nat) (coord : Elem Unit → Res Rat) (X : Nat → Rat), s + N < 2 ^ 31 →
        (∀ k, k < N → coord (el () (s + k)) = .ok (X k)) → Interlaced t p n X → PointsIncrease N X → ¬ Overfull t p n N X →
        ∃ m, MatrixNear t (t (p + n)) p N X m.shown (8 * p / 2 ^ 53) ∧ ∀ σ : Sched,
          Rounded.Builder.mk' fl L σ (.nonUniform u) (seg () s (s + N)) coord =
            Rounded.setup fl L σ m >>= fun S => .ok ⟨.nonUniform u, seg () s (s + N), 0, m, S⟩ := by
  obtain ⟨u, t, e, hk, hm, hu, hper, hmain⟩ := nubs_matrix hfl p hp hp' breaks h2 hb hpn (by omega)
  have hall : ∀ i j (_ : i < j) (h : j < breaks.length), breaks[i] < breaks[j] := by
    intro i j hij
    induction j with
    | zero => omega
    | succ j ih =>
      intro h
      rcases Nat.lt_or_ge i j with c | c
      · exact (ih c (by omega)).trans (hb j h)
      · obtain rfl : i = j := by omega
        exact hb i h
  have hg := GoodBreaks.of_strict h2 hall
  have hbs := BSpl.is_of_nubs hp hg hs hsf hper hu hk
  rw [← hn] at hu hmain hbs
  rw [← hN] at hmain
  refine ⟨u, t, e, hk, fun s coord X hsN hco hX hinc hfull => ?_⟩
  obtain ⟨m, em, hsh, hsz, hnear, -⟩ := hmain s coord X hsN hco hX
  refine ⟨m, hnear, fun σ => ?_⟩
  have hgrid := C47_accepts hbs .greville .greville (s := s) (N := N) (coord := coord) (X := X)
    ⟨hsN, hco, fun k hk => (hX.1 k (by omega)).1, fun k hk => (hX.1 k (by omega)).2⟩ hinc
    (by simpa [Closure.equations] using hN) hfull
  rw [Rounded.Builder.mk', checkValidGridR_eq, hgrid, Res.ok_bind, em]
  rfl

/-! ## A case -/

/-- A direct solver that accepts the identity only. -/
def idLapack : Lapack Rat where
  regular n A := decide (∀ i, i < n → ∀ j, j < n → A i j = if i = j then 1 else 0)
  posDef _ _ := false
  solve _ _ _ b := b

theorem idLapack_backward : idLapack.Backward fun _ _ => 0 where
  nonneg _ _ := le_rfl
  solve t n A b h := by
    have h : ∀ i, i < n → ∀ j, j < n → A i j = if i = j then 1 else 0 := by
      rcases h with h | h
      · exact of_decide_eq_true h
      · cases h
    intro i hi
    have e : ∀ j ∈ range n, (if t = true then A j i else A i j) * b j = if i = j then b j else 0 := by
      intro j hj
      rw [h i hi j (mem_range.1 hj), h j (mem_range.1 hj) i hi]
      by_cases hij : i = j
      · simp [hij]
      · simp [hij, Ne.symm hij]
    simp only [idLapack]
    rw [sum_congr rfl e, sum_ite_eq, if_pos (mem_range.2 hi)]
    simp

/-- The points `0`, `1`, `3`. -/
def threePoints (e : Elem Unit) : Res Rat := do
  let i ← uid1 e
  match i.toNat with
  | 0 => .ok 0
  | 1 => .ok 1
  | 2 => .ok 3
  | _ => .ub

/-- Two blocks, the second one empty. -/
def emptyCorner (S : Solver Rat) : Bool :=
  match S with
  | .blocks2 n (.gbtrs q _) _ _ brn _ => n == 3 && q == 3 && brn == 0
  | _ => false

/-- The hypotheses are met by linear splines on the break points `0`, `1`, `3`. -/
example : ∃ u t B, NUBS.mk' 1 false [0, 1, (3 : Rat)] = .ok u ∧ NUBS.KnotsOf 1 false [0, 1, (3 : Rat)] t ∧
    (∀ k, k < 3 → threePoints (el () (0 + k)) = .ok ([0, 1, 3].getD k 0)) ∧
    Interlaced t 1 2 (fun k => [0, 1, 3].getD k 0) ∧ PointsIncrease (K := Rat) 3 (fun k => [0, 1, 3].getD k 0) ∧
    ¬ Overfull t 1 2 3 (fun k => [0, 1, 3].getD k 0) ∧
    Rounded.Builder.mk' Spec.round53 idLapack seqSched (.nonUniform u) (seg () 0 (0 + 3)) threePoints = .ok B ∧
    B.solver.ColsBound 0 ∧ B.solver.residual (fun _ _ => 0) 2 0 ≤ 1 / 10 ^ 12 := by
  obtain ⟨u, t, e, hk, -⟩ := nubs_matrix Spec.round53_all 1 (by norm_num) (by norm_num) [0, 1, 3] (by decide)
    (fun i hi => by
      have : i < 2 := by simp at hi; omega
      interval_cases i <;> simp) (by decide) (by decide)
  have t1 : t 1 = 0 := hk.inner 0 (by decide)
  have t2 : t 2 = 1 := hk.inner 1 (by decide)
  have t3 : t 3 = 3 := hk.inner 2 (by decide)
  have hB : (match Rounded.Builder.mk' Spec.round53 idLapack seqSched (.nonUniform u) (seg () 0 (0 + 3)) threePoints with
      | .ok B => emptyCorner B.solver | _ => false) = true := by
    have : (match (NUBS.mk' 1 false [0, 1, (3 : Rat)] >>= fun u =>
        Rounded.Builder.mk' Spec.round53 idLapack seqSched (.nonUniform u) (seg () 0 (0 + 3)) threePoints) with
      | .ok B => emptyCorner B.solver | _ => false) = true := by decide +kernel
    rwa [e, Res.ok_bind] at this
  split at hB
  case h_2 => cases hB
  case h_1 B eB =>
    refine ⟨u, t, B, e, hk, by decide +kernel, ⟨?_, ?_⟩, ?_, ?_, eB, ?_⟩
    · intro i hi
      rw [t1, show t (1 + 2) = 3 from t3]
      interval_cases i <;> norm_num
    · intro i _ hi
      interval_cases i
      · rw [t1]; norm_num
      · rw [t2]; norm_num
      · rw [t3]; norm_num
    · intro i j hij hj
      interval_cases j <;> interval_cases i <;> norm_num
    · rintro ⟨k, hk', h⟩
      interval_cases k <;> simp only [cellCount] at h
      · rw [t1, t2] at h
        revert h; decide +kernel
      · rw [t2, t3] at h
        revert h; decide +kernel
    · generalize B.solver = S at hB
      match S, hB with
      | .blocks2 n (.gbtrs q A) tr bl brn br, hB =>
        simp only [emptyCorner, Bool.and_eq_true, beq_iff_eq] at hB
        obtain ⟨⟨rfl, rfl⟩, rfl⟩ := hB
        refine ⟨⟨trivial, fun c hc => by omega⟩, ?_⟩
        simp only [Solver.residual, blockResidual, Solver.size]
        norm_num

end DDC.Props
