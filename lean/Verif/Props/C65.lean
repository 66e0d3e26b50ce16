import Verif.Model.RoundedDeriv
import Verif.Props.C32
import Verif.Props.C60b

/-!
# C65 — first derivatives of B-splines with rounding
-/

namespace DDC.Props

open One Rounded Spec Finset Polynomial

variable {fl : Rat → Rat}

/-- Specification: the derivative of a B-spline is the difference of two consecutive slopes. -/
def slope (t : Nat → Rat) (b : Rat) (p : Nat) (x : Rat) (i : Nat) : Rat :=
  p * Spec.bspline t b (p - 1) i x / (t (i + p) - t i)

/-- Specification: the array `v` with the index `m` of its first entry lists the derivatives at `x` of the polynomial
pieces of the B-splines of degree `p` on the interval containing `x`, with errors of at most `ε` times the sum of the two
slopes. -/
structure DerivNear (t : Nat → Rat) (b : Rat) (p : Nat) (x : Rat) (m : Nat) (v : Arr Rat) (ε : Rat) : Prop where
  size : v.size = p + 1
  cell : Spec.InCell t b x (m + p)
  value : ∀ r, r ≤ p → ∃ P y, IsPiece t b p (m + r) (m + p) P ∧ v.val r = some y ∧
    |y - (derivative P).eval x| ≤ ε * (slope t b p x (m + r) + slope t b p x (m + r + 1))

/-! ## Non-uniform B-splines -/

/-- The loop taking the differences. -/
theorem diffR_ok {u : NUBS Rat} (c : U64) (D W : Nat → Rat) (p : Nat) (hp : 0 < p)
    (hW : ∀ (a : Arr Rat) j, j < p → j < a.size → a.val j = some (D j) → Rounded.derivTerm fl u c j a = .ok (W j))
    (a : Arr Rat) (h : Line a (p + 1) D (p - 1)) :
    ∃ s : Arr Rat × Rat, forLoop (Rounded.derivDiff fl u c) 1 (p - 1) (a.set 0 (-(W 0)), W 0) = .ok s ∧
      s.1.size = p + 1 ∧ s.2 = W (p - 1) ∧
      ∀ r, r < p → s.1.val r = some (if r = 0 then -(W 0) else fl (W (r - 1) - W r)) := by
  obtain ⟨s, e, h1, h2, h4, _⟩ := forLoop_inv (f := Rounded.derivDiff fl u c)
    (fun j (s : Arr Rat × Rat) => s.1.size = p + 1 ∧ s.2 = W (j - 1) ∧
      (∀ r, r < j → s.1.val r = some (if r = 0 then -(W 0) else fl (W (r - 1) - W r))) ∧
      (∀ r, j ≤ r → r < p → s.1.val r = some (D r)))
    (p - 1) 1 (a.set 0 (-(W 0)), W 0)
    ⟨h.1, rfl, fun r hr => by
      obtain rfl : r = 0 := by omega
      rw [Arr.set_val]; simp, fun r hr hr' => by
      rw [Arr.set_val, if_neg (by omega)]; exact h.2 r (by omega)⟩
    (by
      rintro j ⟨a, sv⟩ hj hj' ⟨h1, h3, h4, h5⟩
      simp only at h1 h3 h4 h5
      have hja : j < a.size := by omega
      simp only [Rounded.derivDiff, hW a j (by omega) hja (h5 j (le_refl _) (by omega)), Res.ok_bind,
        Arr.wr_ok hja, Res.pure_eq]
      refine ⟨_, rfl, h1, rfl, fun r hr => ?_, fun r hr hr' => ?_⟩
      · rw [Arr.set_val]
        split
        · subst r; rw [if_neg (by omega), h3]
        · exact h4 r (by omega)
      · rw [Arr.set_val, if_neg (by omega)]; exact h5 r (by omega) hr')
  rw [show 1 + (p - 1) = p by omega] at *
  exact ⟨s, e, h1, h2, h4⟩

/-- One computed slope. -/
theorem slope_near (hfl : RoundsAll fl) {p : Nat} (hp : 0 < p) (hp' : p ≤ 2 ^ 20) {v w d : Rat} (hv : 0 ≤ v) (hw : 0 ≤ w)
    (hd : 0 < d) (h : |v - w| ≤ 8 * ((p - 1 : Nat) : Rat) / 2 ^ 53 * w) :
    |fl (fl (p * v) / fl d) - p * w / d| ≤ (8 * p - 4) / 2 ^ 53 * (p * w / d) ∧ 0 ≤ fl (fl (p * v) / fl d) := by
  obtain ⟨κ, hκ⟩ : ∃ κ : Rat, κ = 8 * ((p - 1 : Nat) : Rat) / 2 ^ 53 := ⟨_, rfl⟩
  have hp0 : (1 : Rat) ≤ p := by exact_mod_cast hp
  have hp1 : (p : Rat) ≤ 1048576 := by exact_mod_cast hp'
  rw [← hκ] at h
  rw [Nat.cast_sub (by omega)] at hκ
  have κ0 : 0 ≤ κ := by rw [hκ]; push_cast; apply div_nonneg <;> linarith
  have κ1 : κ ≤ 1 / 2 ^ 30 := by rw [hκ]; norm_num; linarith
  have hε : (8 * p - 4) / 2 ^ 53 = κ + 4 / 2 ^ 53 := by rw [hκ]; push_cast; ring
  rw [hε]
  have h' := abs_le.1 h
  have n0 : (0 : Rat) ≤ p * v := by positivity
  have a1 := fl_le hfl n0
  have a2 := le_fl hfl n0
  have a3 := fl_le hfl hd.le
  have a4 := le_fl hfl hd.le
  have d0 : 0 < fl d := lt_of_lt_of_le (mul_pos (by norm_num) hd) a4
  have q0 : 0 ≤ fl (p * v) / fl d := div_nonneg (fl_nonneg hfl n0) d0.le
  refine ⟨?_, fl_nonneg hfl q0⟩
  have a5 := fl_le hfl q0
  have a6 := le_fl hfl q0
  obtain ⟨q, hq⟩ : ∃ q, q = p * w / d := ⟨_, rfl⟩
  have hq' : p * w = q * d := by rw [hq]; field_simp
  have hqn : 0 ≤ q := by rw [hq]; positivity
  rw [← hq]
  have b1 : p * v ≤ (1 + κ) * (p * w) := by
    have := mul_le_mul_of_nonneg_left (show v ≤ (1 + κ) * w by linarith) (show (0 : Rat) ≤ p by linarith)
    linarith
  have b2 : (1 - κ) * (p * w) ≤ p * v := by
    have := mul_le_mul_of_nonneg_left (show (1 - κ) * w ≤ v by linarith) (show (0 : Rat) ≤ p by linarith)
    linarith
  have s1 : fl (p * v) / fl d ≤ (1 + κ + (5 / 2) / 2 ^ 53) * q := by
    rw [div_le_iff₀ d0]
    have e1 : (1 + κ) * (1 + 1 / 2 ^ 53) ≤ (1 + κ + (5 / 2) / 2 ^ 53) * (1 - 1 / 2 ^ 53) := by
      norm_num at κ1 ⊢; linarith
    have e2 := mul_le_mul_of_nonneg_right e1 (mul_nonneg hqn hd.le)
    have e3 := mul_le_mul_of_nonneg_left a4 (show 0 ≤ (1 + κ + (5 / 2) / 2 ^ 53) * q by positivity)
    have e4 := mul_le_mul_of_nonneg_left b1 (show (0 : Rat) ≤ 1 + 1 / 2 ^ 53 by norm_num)
    rw [hq'] at e4
    calc fl (p * v) ≤ (1 + 1 / 2 ^ 53) * (p * v) := a1
      _ ≤ (1 + 1 / 2 ^ 53) * ((1 + κ) * (q * d)) := e4
      _ = (1 + κ) * (1 + 1 / 2 ^ 53) * (q * d) := by ring
      _ ≤ (1 + κ + (5 / 2) / 2 ^ 53) * (1 - 1 / 2 ^ 53) * (q * d) := e2
      _ = (1 + κ + (5 / 2) / 2 ^ 53) * q * ((1 - 1 / 2 ^ 53) * d) := by ring
      _ ≤ _ := e3
  have s2 : (1 - κ - (5 / 2) / 2 ^ 53) * q ≤ fl (p * v) / fl d := by
    rw [le_div_iff₀ d0]
    have e1 : (1 - κ - (5 / 2) / 2 ^ 53) * (1 + 1 / 2 ^ 53) ≤ (1 - κ) * (1 - 1 / 2 ^ 53) := by
      norm_num at κ1 ⊢; linarith
    have e2 := mul_le_mul_of_nonneg_right e1 (mul_nonneg hqn hd.le)
    have e3 := mul_le_mul_of_nonneg_left a3 (show 0 ≤ (1 - κ - (5 / 2) / 2 ^ 53) * q by
      refine mul_nonneg ?_ hqn
      norm_num at κ1 ⊢; linarith)
    have e4 := mul_le_mul_of_nonneg_left b2 (show (0 : Rat) ≤ 1 - 1 / 2 ^ 53 by norm_num)
    rw [hq'] at e4
    calc (1 - κ - (5 / 2) / 2 ^ 53) * q * fl d ≤ (1 - κ - (5 / 2) / 2 ^ 53) * q * ((1 + 1 / 2 ^ 53) * d) := e3
      _ = (1 - κ - (5 / 2) / 2 ^ 53) * (1 + 1 / 2 ^ 53) * (q * d) := by ring
      _ ≤ (1 - κ) * (1 - 1 / 2 ^ 53) * (q * d) := e2
      _ = (1 - 1 / 2 ^ 53) * ((1 - κ) * (q * d)) := by ring
      _ ≤ (1 - 1 / 2 ^ 53) * (p * v) := e4
      _ ≤ _ := a2
  generalize fl (p * v) / fl d = Q at *
  have t1 : (1 + 1 / 2 ^ 53) * ((1 + κ + (5 / 2) / 2 ^ 53) * q) ≤ (1 + κ + 4 / 2 ^ 53) * q := by
    rw [← mul_assoc]
    refine mul_le_mul_of_nonneg_right ?_ hqn
    norm_num at κ1 ⊢; linarith
  have t2 : (1 - κ - 4 / 2 ^ 53) * q ≤ (1 - 1 / 2 ^ 53) * ((1 - κ - (5 / 2) / 2 ^ 53) * q) := by
    rw [← mul_assoc]
    refine mul_le_mul_of_nonneg_right ?_ hqn
    norm_num at κ0 ⊢; linarith
  have t3 := mul_le_mul_of_nonneg_left s1 (show (0 : Rat) ≤ 1 + 1 / 2 ^ 53 by norm_num)
  have t4 := mul_le_mul_of_nonneg_left s2 (show (0 : Rat) ≤ 1 - 1 / 2 ^ 53 by norm_num)
  rw [abs_le]
  constructor <;> linarith

/-- The difference of two computed slopes. -/
theorem slopes_near (hfl : RoundsAll fl) {p : Nat} (hp : 0 < p) (hp' : p ≤ 2 ^ 20) {V V' w w' : Rat} (hw : 0 ≤ w) (hw' : 0 ≤ w')
    (h : |V - w| ≤ (8 * p - 4) / 2 ^ 53 * w) (h' : |V' - w'| ≤ (8 * p - 4) / 2 ^ 53 * w') :
    |fl (V - V') - (w - w')| ≤ 8 * p / 2 ^ 53 * (w + w') := by
  obtain ⟨κ, hκ⟩ : ∃ κ : Rat, κ = (8 * p - 4) / 2 ^ 53 := ⟨_, rfl⟩
  have hp0 : (1 : Rat) ≤ p := by exact_mod_cast hp
  have hp1 : (p : Rat) ≤ 1048576 := by exact_mod_cast hp'
  rw [show 8 * (p : Rat) / 2 ^ 53 = κ + 4 / 2 ^ 53 by rw [hκ]; ring]
  rw [← hκ] at h h'
  have κ0 : 0 ≤ κ := by rw [hκ]; apply div_nonneg <;> linarith
  have κ1 : κ ≤ 1 / 2 ^ 30 := by rw [hκ]; norm_num; linarith
  have k1 : |(V - V') - (w - w')| ≤ κ * (w + w') := by
    rw [sub_sub_sub_comm, mul_add]
    exact (abs_sub _ _).trans (add_le_add h h')
  have k2 : |V - V'| ≤ (1 + κ) * (w + w') := by
    have a := abs_le.1 h
    have b := abs_le.1 h'
    rw [abs_le]
    constructor <;> linarith [mul_nonneg κ0 hw, mul_nonneg κ0 hw']
  have k3 := hfl.error (V - V')
  have s := add_nonneg hw hw'
  have k4 : (1 + κ) * (w + w') / 2 ^ 53 ≤ 2 / 2 ^ 53 * (w + w') := by
    rw [mul_div_right_comm]
    refine mul_le_mul_of_nonneg_right ?_ s
    norm_num at κ1 ⊢; linarith
  have k5 : |V - V'| / 2 ^ 53 ≤ (1 + κ) * (w + w') / 2 ^ 53 := by gcongr
  calc |fl (V - V') - (w - w')| ≤ |fl (V - V') - (V - V')| + |(V - V') - (w - w')| := abs_sub_le _ _ _
    _ ≤ 2 / 2 ^ 53 * (w + w') + κ * (w + w') := add_le_add ((k3.trans k5).trans k4) k1
    _ ≤ _ := by rw [← add_mul]; refine mul_le_mul_of_nonneg_right (by norm_num; linarith) s

/-- `eval_deriv` with rounding on B-splines with the knots `t`. -/
theorem nubs_evalDerivR (hfl : RoundsAll fl) {u : NUBS Rat} {p n : Nat} {t : Nat → Rat} (hu : u.Is p n t) (hp : 0 < p)
    (hp' : p ≤ 2 ^ 20) (g0 : t p < t (p + 1)) (g1 : t (p + n - 1) < t (p + n)) (x : Rat) (hx1 : t p ≤ x) (hx2 : x ≤ t (p + n))
    (derivs : Arr Rat) (hd : derivs.size = p + 1) :
    ∃ m v, m < n ∧ Rounded.evalDeriv fl u derivs x = .ok (v, el1 (BitVec.ofNat 64 m)) ∧
      DerivNear t (t (p + n)) p x m v (8 * p / 2 ^ 53) := by
  have hcl := hu.cells
  obtain ⟨c, e1, h3, h4, h5⟩ := rounded_cell hfl hu g0 g1 ⟨hx1, hx2⟩
  obtain ⟨s, e2, hl⟩ := Rounded.triangle (fl := fl) hu (x := x) (s0 := 1) h3 h4 (p - 1) (by omega) (derivs.set 0 1) (p + 1)
    (by omega) (by simpa using hd) (by rw [Arr.set_val, if_pos rfl])
  have hx := h5.le
  have hcc : t c < t (c + 1) := h5.lt
  set D := triR fl (nA fl t x c) (nB fl t x c) (nD fl t x c) 1 (p - 1) with hD
  set E := tri (NUBS.nL t x c) (NUBS.nR t x c) 1 (p - 1) with hE
  have hDE : ∀ j, j < p → 0 ≤ D j ∧ 0 ≤ E j ∧ |D j - E j| ≤ 8 * ((p - 1 : Nat) : Rat) / 2 ^ 53 * E j := fun j hj =>
    nubs_rel hfl hu.mono hp' h3 hx.1 hx.2 hcc (by omega) (by omega)
  have hEv : ∀ j, j < p → E j = Spec.bspline t (t (p + n)) (p - 1) (c - (p - 1) + j) x := by
    intro j hj
    rw [hE, tri_bspline (L := NUBS.nL t x c) (R := NUBS.nR t x c) hu.mono h5 1 (p - 1) (by omega)
      (fun j r _ _ => rfl) (fun j r _ _ => rfl) (p - 1) j (le_refl _) (by omega), one_mul]
  have hw : ∀ j, j < p → 0 < t (c + j + 1) - t (c + j + 1 - p) := by
    intro j hj
    have k1 := hu.mono (show c + j + 1 - p ≤ c by omega)
    have k2 := hu.mono (show c + 1 ≤ c + j + 1 by omega)
    linarith
  let V : Nat → Rat := fun j => fl (fl (p * D j) / fl (t (c + j + 1) - t (c + j + 1 - p)))
  let W : Nat → Rat := fun j => (p : Rat) * E j / (t (c + j + 1) - t (c + j + 1 - p))
  have hVW : ∀ j, j < p → 0 ≤ W j ∧ |V j - W j| ≤ (8 * p - 4) / 2 ^ 53 * W j := fun j hj =>
    ⟨div_nonneg (mul_nonneg (Nat.cast_nonneg p) (hDE j hj).2.1) (hw j hj).le,
      (slope_near hfl hp hp' (hDE j hj).1 (hDE j hj).2.1 (hw j hj) (hDE j hj).2.2).1⟩
  have hV : ∀ (a : Arr Rat) j, j < p → j < a.size → a.val j = some (D j) →
      Rounded.derivTerm fl u (BitVec.ofNat 64 c) j a = .ok (V j) := by
    intro a j hj hja hv
    rw [Rounded.derivTerm, Arr.rd_ok hja hv, Res.ok_bind, (hu.sideKnots h3 h4 hj).2, Res.ok_bind,
      ← BitVec.ofNat_add, NUBS.ofNat_succ, hu.degree, ofNat_sub (by omega), hu.knot (by omega)]
    rfl
  obtain ⟨v, e3, k1, k2, k3⟩ := diffR_ok (u := u) (BitVec.ofNat 64 c) D V p hp hV s.values hl
  have hguard : decide (derivs.size = u.degree + 1) = true := by rw [hu.degree]; exact decide_eq_true hd
  have hcp : c - p + p = c := by omega
  have h5' : Spec.InCell t (t (p + n)) x (c - p + p) := by rw [hcp]; exact h5
  have hslope : ∀ r, r ≤ p → slope t (t (p + n)) p x (c - p + r) = if r = 0 then 0 else W (r - 1) := by
    intro r hr
    by_cases h : r = 0
    · subst h
      rw [if_pos rfl, slope, Spec.bspline_eq_piece hu.mono h5', Spec.piece_zero _ _ _ _ (by omega)]; simp
    · rw [if_neg h, slope]
      show _ = (p : Rat) * E (r - 1) / (t (c + (r - 1) + 1) - t (c + (r - 1) + 1 - p))
      rw [hEv _ (by omega), show c - (p - 1) + (r - 1) = c - p + r by omega, show c - p + r + p = c + (r - 1) + 1 by omega,
        show c + (r - 1) + 1 - p = c - p + r by omega]
  have hslope' : ∀ r, r ≤ p → slope t (t (p + n)) p x (c - p + r + 1) = if r = p then 0 else W r := by
    intro r hr
    by_cases h : r = p
    · rw [if_pos h, slope, h, Spec.bspline_eq_piece hu.mono h5', Spec.piece_zero _ _ _ _ (by omega)]; simp
    · rw [if_neg h, Nat.add_assoc, hslope (r + 1) (by omega), if_neg (by omega), Nat.add_sub_cancel]
  refine ⟨c - p, v.1.set p v.2, by omega, ?_, by simpa using k1, h5', fun r hr => ?_⟩
  · rw [Rounded.evalDeriv, hu.rmin, Res.ok_bind, hu.rmax, Res.ok_bind, inside_ok hfl hx1 hx2,
      Res.ok_bind, hguard, Res.guardAbort_true, Res.ok_bind, e1, Res.ok_bind, NUBS.uid1_el, Res.ok_bind,
      rounded_checkCell hfl hu h3 h4 hx, Res.ok_bind, Arr.wr_ok (by omega), Res.ok_bind, hu.degree, e2, Res.ok_bind,
      hV s.values 0 hp (by rw [hl.1]; omega) (hl.2 0 (by omega)), Res.ok_bind,
      Arr.wr_ok (by rw [hl.1]; omega), Res.ok_bind, e3, Res.ok_bind, Arr.wr_ok (by rw [k1]; omega),
      Res.ok_bind, hu.firstBspline h3 h4]
    rfl
  · refine ⟨_, if r = p then V (p - 1) else if r = 0 then -(V 0) else fl (V (r - 1) - V r),
      isPiece_piece hu.mono _ p (c - p + r) (c - p + p), ?_, ?_⟩
    · rw [Arr.set_val]
      by_cases hrp : r = p
      · rw [if_pos hrp, if_pos hrp, k2]
      · rw [if_neg hrp, if_neg hrp, k3 r (by omega)]
    · rw [hcp, diffs_deriv hu.mono h5 p (c - p) hp hcp.symm W (fun j hj => by
        show (p : Rat) * E j / _ = _
        rw [hEv j hj, show c + j + 1 - p = c - (p - 1) + j by omega]) r hr, hslope r hr, hslope' r hr]
      have hε : (8 * (p : Rat) - 4) / 2 ^ 53 ≤ 8 * p / 2 ^ 53 := by gcongr; linarith
      by_cases hrp : r = p
      · rw [if_pos hrp, if_pos hrp, if_neg (by omega), hrp, sub_zero, add_zero]
        exact (hVW _ (by omega)).2.trans (mul_le_mul_of_nonneg_right hε (hVW _ (by omega)).1)
      · rw [if_neg hrp, if_neg hrp]
        by_cases hr0 : r = 0
        · rw [if_pos hr0, if_pos hr0, hr0, zero_sub, zero_add, neg_sub_neg, abs_sub_comm]
          exact (hVW _ hp).2.trans (mul_le_mul_of_nonneg_right hε (hVW _ hp).1)
        · rw [if_neg hr0, if_neg hr0]
          exact slopes_near hfl hp hp' (hVW _ (by omega)).1 (hVW _ (by omega)).1 (hVW _ (by omega)).2 (hVW _ (by omega)).2

/-- Non-uniform B-splines, whatever the rounding and the spacing of the break points: `eval_deriv` returns the derivatives
with an error of at most `8 p 2⁻⁵³` times the two terms they are the difference of. -/
theorem C65_non_uniform (hfl : RoundsAll fl) (p : Nat) (hp : 0 < p) (hp' : p ≤ 2 ^ 20) (breaks : List Rat)
    (hb : GoodBreaks breaks) (hs : breaks.length + 2 * p < 2 ^ 63) :
    ∃ u t, NUBS.mk' p false breaks = .ok u ∧ Monotone t ∧
      (∀ i (h : i < breaks.length), t (p + i) = breaks[i]) ∧
      (∀ k, k < breaks.length + 2 * p → u.knots.coordinate (el1 (BitVec.ofNat 64 k)) = .ok (t k)) ∧
      ∀ x, t p ≤ x → x ≤ t (p + (breaks.length - 1)) → ∀ derivs : Arr Rat, derivs.size = p + 1 →
        ∃ m v, m < breaks.length - 1 ∧ Rounded.evalDeriv fl u derivs x = .ok (v, el1 (BitVec.ofNat 64 m)) ∧
          DerivNear t (t (p + (breaks.length - 1))) p x m v (8 * p / 2 ^ 53) := by
  have h2 := hb.two
  obtain ⟨u, t, e, -, hu, hk⟩ := NUBS.mk'_is hp false hb.two hs hb.sorted hb.lt
  obtain ⟨g0, g1⟩ := goodEnds hb hk
  refine ⟨u, t, e, hu.mono, hk.inner, fun k hk => hu.coord k (by omega), fun x hx1 hx2 derivs hd => ?_⟩
  exact nubs_evalDerivR hfl hu hp hp' g0 g1 x hx1 hx2 derivs hd

/-- The same for periodic B-splines, the knots of which are computed with rounding too. -/
theorem C65_periodic_non_uniform (hfl : RoundsAll fl) (p : Nat) (hp : 0 < p) (hp' : p ≤ 2 ^ 20) (breaks : List Rat)
    (hb : WideEnds fl breaks) (hs : breaks.length + 2 * p < 2 ^ 63) :
    ∃ u t, Rounded.mkNubs fl p true breaks = .ok u ∧ Monotone t ∧
      (∀ i (h : i < breaks.length), t (p + i) = breaks[i]) ∧
      (∀ k, k < breaks.length + 2 * p → u.knots.coordinate (el1 (BitVec.ofNat 64 k)) = .ok (t k)) ∧
      ∀ x, t p ≤ x → x ≤ t (p + (breaks.length - 1)) → ∀ derivs : Arr Rat, derivs.size = p + 1 →
        ∃ m v, m < breaks.length - 1 ∧ Rounded.evalDeriv fl u derivs x = .ok (v, el1 (BitVec.ofNat 64 m)) ∧
          DerivNear t (t (p + (breaks.length - 1))) p x m v (8 * p / 2 ^ 53) := by
  have h2 := hb.two
  obtain ⟨u, t, e, -, hu, hk, g0, g1, -⟩ := mkNubs_is hfl hp hs hb
  refine ⟨u, t, e, hu.mono, hk, fun k hk => hu.coord k (by omega), fun x hx1 hx2 derivs hd => ?_⟩
  exact nubs_evalDerivR hfl hu hp hp' g0 g1 x hx1 hx2 derivs hd

/-! ## Uniform B-splines -/

/-- The loop taking the differences. -/
theorem diffU_ok (D : Nat → Rat) (p : Nat) (hp : 0 < p) (a : Arr Rat) (h : Line a (p + 1) D (p - 1)) :
    ∃ s : Arr Rat × Rat × Rat, forLoop (Knots.derivDiff fl) 1 (p - 1) (a.set 0 (-(D 0)), D 0, D 0) = .ok s ∧
      s.1.size = p + 1 ∧ s.2.1 = D (p - 1) ∧
      ∀ r, r < p → s.1.val r = some (if r = 0 then -(D 0) else fl (D (r - 1) - D r)) := by
  obtain ⟨s, e, h1, h2, _, h4, _⟩ := forLoop_inv (f := Knots.derivDiff fl)
    (fun j (s : Arr Rat × Rat × Rat) => s.1.size = p + 1 ∧ s.2.1 = D (j - 1) ∧ s.2.2 = D (j - 1) ∧
      (∀ r, r < j → s.1.val r = some (if r = 0 then -(D 0) else fl (D (r - 1) - D r))) ∧
      (∀ r, j ≤ r → r < p → s.1.val r = some (D r)))
    (p - 1) 1 (a.set 0 (-(D 0)), D 0, D 0)
    ⟨h.1, rfl, rfl, fun r hr => by
      obtain rfl : r = 0 := by omega
      rw [Arr.set_val]; simp, fun r hr hr' => by
      rw [Arr.set_val, if_neg (by omega)]; exact h.2 r (by omega)⟩
    (by
      rintro j ⟨a, bj, bjm1⟩ hj hj' ⟨h1, h2, h3, h4, h5⟩
      simp only at h1 h2 h3 h4 h5
      have hja : j < a.size := by omega
      simp only [Knots.derivDiff, Arr.rd_ok hja (h5 j (le_refl _) (by omega)), Res.ok_bind, Arr.wr_ok hja,
        Res.pure_eq]
      refine ⟨_, rfl, h1, rfl, rfl, fun r hr => ?_, fun r hr hr' => ?_⟩
      · rw [Arr.set_val]
        split
        · subst r; rw [if_neg (by omega), h3]
        · exact h4 r (by omega)
      · rw [Arr.set_val, if_neg (by omega)]; exact h5 r (by omega) hr')
  rw [show 1 + (p - 1) = p by omega] at *
  exact ⟨s, e, h1, h2, h4⟩

theorem tri_scale (L R : Nat → Nat → Rat) (s0 : Rat) (j r : Nat) : tri L R s0 j r = s0 * tri L R 1 j r := by
  induction j generalizing r with
  | zero => simp [tri]
  | succ j ih =>
    rw [tri, tri, ih, ih]
    split_ifs <;> ring

/-- The B-splines with the same knots but the first one. -/
theorem bspline_shift (t : Nat → Rat) (b : Rat) (q i : Nat) (x : Rat) :
    Spec.bspline t b q (i + 1) x = Spec.bspline (fun k => t (k + 1)) b q i x := by
  induction q generalizing i with
  | zero => rfl
  | succ q ih =>
    rw [Spec.bspline, Spec.bspline, ih i, ih (i + 1), show i + 1 + q + 1 = i + q + 1 + 1 by omega,
      show i + 1 + q + 2 = i + q + 2 + 1 by omega]

/-- The derivatives of the B-splines on the integers. -/
theorem int_deriv {q c : Nat} {b y : Rat} (h1 : (c : Rat) ≤ y) (h2 : y < c + 1) (hb : y < b) (i : Nat) :
    (derivative (Spec.piece (intKnot (q + 1)) (q + 1 + c) (q + 1) i)).eval y =
      (if i = 0 then 0 else cellValue q c (y - c) (i - 1)) - cellValue q c (y - c) i := by
  have hc : Spec.InCell (intKnot (q + 1)) b y (q + 1 + c) := by
    rw [Spec.InCell, if_pos hb, intKnot, intKnot]
    push_cast
    constructor <;> linarith
  have hsh : ∀ i, Spec.bspline (intKnot (q + 1)) b q (i + 1) y = cellValue q c (y - c) i := by
    intro i
    rw [bspline_shift, ← int_bspline h1 h2 hb i]
    congr 1
    funext k
    rw [intKnot, intKnot]; push_cast; ring
  have h0 : Spec.bspline (intKnot (q + 1)) b q 0 y = 0 := by
    rw [Spec.bspline_eq_piece (intKnot_mono _) hc, Spec.piece_zero _ _ _ _ (by omega)]; simp
  rw [Spec.derivative_piece (intKnot_mono _)]
  simp only [eval_sub, eval_mul, eval_C, ← Spec.bspline_eq_piece (intKnot_mono _) hc, hsh]
  have hq : ((q : Rat) + 1) ≠ 0 := by positivity
  have e1 : ∀ k : Nat, intKnot (q + 1) (k + q + 1) - intKnot (q + 1) k = q + 1 := by
    intro k; rw [intKnot, intKnot]; push_cast; ring
  have e2 : intKnot (q + 1) (i + q + 2) - intKnot (q + 1) (i + 1) = q + 1 := by
    rw [intKnot, intKnot]; push_cast; ring
  rw [e1, e2]
  push_cast
  cases i with
  | zero => rw [if_pos rfl, h0]; field_simp
  | succ i => rw [if_neg (Nat.succ_ne_zero i), hsh, Nat.add_sub_cancel]; field_simp

/-- Shift by one. -/
def sh (f : Nat → Rat) (i : Nat) : Rat := if i = 0 then 0 else f (i - 1)

theorem sum_sh {f : Nat → Rat} {N : Nat} (hf : ∀ i, 0 ≤ f i) :
    ∑ i ∈ range (N + 1), sh f i ≤ ∑ i ∈ range (N + 1), f i := by
  rw [sum_range_succ' (sh f)]
  simp only [sh, Nat.succ_ne_zero, if_false, Nat.add_sub_cancel, if_true, add_zero]
  exact sum_le_sum_of_subset_of_nonneg (range_subset_range.2 (by omega)) (fun i _ _ => hf i)

/-- Specification: the array `v` with the index `m` of its first entry lists the derivatives at `y` of the polynomial pieces
of the first `N` B-splines of degree `p` on an interval containing `y`, divided by `h`, the others being taken as zero: the
errors of the `N` derivatives add up to at most `ε / h`. -/
structure DerivClose (t : Nat → Rat) (b : Rat) (p N : Nat) (y : Rat) (m : Nat) (v : Arr Rat) (h ε : Rat) : Prop where
  size : v.size = p + 1
  last : m + p < N
  near : ∃ (f : Nat → Rat) (P : Nat → Rat[X]) (c : Nat), Spec.InCell t b y c ∧ (∀ i, IsPiece t b p i c (P i)) ∧
    (∀ r, r ≤ p → v.val r = some (f (m + r))) ∧ (∀ i, ¬ (m ≤ i ∧ i ≤ m + p) → f i = 0) ∧
    ∑ i ∈ range N, |f i * h - (derivative (P i)).eval y| ≤ ε

/-- The sum of the differences of two lists of values. -/
theorem sum_diffs {F E f : Nat → Rat} {N : Nat} {h e S : Rat} (hh : 0 ≤ h) (hF : ∀ i, 0 ≤ F i)
    (hf : ∀ i, |f i - (sh F i - F i)| ≤ 1 / 2 ^ 53 * (sh F i + F i))
    (hS : h * ∑ i ∈ range (N + 1), F i ≤ S) (he : ∑ i ∈ range (N + 1), |F i * h - E i| ≤ e) :
    ∑ i ∈ range (N + 1), |f i * h - (sh E i - E i)| ≤ 2 / 2 ^ 53 * S + 2 * e := by
  have key : ∀ i, |f i * h - (sh E i - E i)| ≤ 1 / 2 ^ 53 * h * sh F i + 1 / 2 ^ 53 * h * F i +
      sh (fun i => |F i * h - E i|) i + |F i * h - E i| := by
    intro i
    have k1 := mul_le_mul_of_nonneg_right (hf i) hh
    have k2 : |sh F i * h - sh E i| = sh (fun i => |F i * h - E i|) i := by
      rw [sh, sh, sh]; split_ifs <;> simp
    rw [← k2]
    have e1 : f i * h - (sh E i - E i) = (f i - (sh F i - F i)) * h + (sh F i * h - sh E i) - (F i * h - E i) := by ring
    rw [e1]
    refine ((abs_sub _ _).trans (add_le_add_left (abs_add_le _ _) _)).trans ?_
    rw [abs_mul, abs_of_nonneg hh]
    linarith
  refine (sum_le_sum fun i _ => key i).trans ?_
  rw [sum_add_distrib, sum_add_distrib, sum_add_distrib, ← mul_sum, ← mul_sum]
  have s1 := sum_sh (N := N) hF
  have s2 := sum_sh (f := fun i => |F i * h - E i|) (N := N) (fun i => abs_nonneg _)
  have s3 := mul_le_mul_of_nonneg_left s1 (show 0 ≤ 1 / 2 ^ 53 * h by positivity)
  linarith

/-- `eval_deriv` at a known cell and offset. -/
theorem ubs_evalDerivR (hfl : RoundsAll fl) {k : Knots} {n p : Nat} (hp : 2 ≤ p) (hp' : p < 2 ^ 20) (hk : k.p = p)
    (hs : 0 < k.step)
    {x : Rat} {c : Nat} {o : Rat} (hg : getIcellAndOffset fl k x = .ok ((c : Int), o)) (hc : c ≤ n) (h0 : 0 ≤ o) (h1 : o ≤ 1)
    {y Δ : Rat} (hy0 : 0 ≤ y) (hy : y < n + 1) (hd : |(c : Rat) + o - y| ≤ Δ) (hΔ : Δ < 1) {derivs : Arr Rat}
    (hv : derivs.size = p + 1) :
    ∃ v, k.evalDeriv fl derivs x = .ok (v, (c : Int)) ∧
      DerivClose (intKnot p) (n + 1) p (n + p + 1) y c v k.step (2 * p * (p + 11) / 2 ^ 53 + 4 * p * Δ) := by
  obtain ⟨q, rfl⟩ : ∃ q, p = q + 1 := ⟨p - 1, by omega⟩
  have hinv : (0 : Rat) ≤ 1 / k.step := by positivity
  have s0n : 0 ≤ fl (1 / k.step) := fl_nonneg hfl hinv
  have hs1 : |fl (1 / k.step) * k.step - 1| ≤ 1 / 2 ^ 53 := by
    have := mul_le_mul_of_nonneg_right (hfl.error (1 / k.step)) hs.le
    rw [abs_of_nonneg hinv, ← abs_of_pos hs, ← abs_mul, abs_of_pos hs] at this
    have e : (fl (1 / k.step) - 1 / k.step) * k.step = fl (1 / k.step) * k.step - 1 := by field_simp
    have e' : 1 / k.step / 2 ^ 53 * k.step = 1 / 2 ^ 53 := by field_simp
    rwa [e, e'] at this
  obtain ⟨d, e, hl⟩ := Knots.triangle_ok (fl := fl) o (fl (1 / k.step)) q (derivs.set 0 (fl (1 / k.step))) (q + 1 + 1)
    (by omega) (by simpa using hv) (by rw [Arr.set_val, if_pos rfl])
  obtain ⟨k1, k2, k3⟩ := ubs_lines_from hfl h0 h1 (p := q) (by omega) s0n
  generalize hT : triR fl (uA fl o) (uB fl o) uD (fl (1 / k.step)) q = T at hl k1 k2 k3
  obtain ⟨s, e2, m1, m2, m3⟩ := diffU_ok (fl := fl) T (q + 1) (by omega) d hl
  have hd' : decide (derivs.size = k.p + 1) = true := by rw [hk]; exact decide_eq_true hv
  obtain ⟨c', hc1⟩ : ∃ c' : Nat, (c' : Int) = ⌊y⌋ := ⟨⌊y⌋.toNat, Int.toNat_of_nonneg (Int.floor_nonneg.2 hy0)⟩
  have f1 : (c' : Rat) ≤ y := by
    have := Int.floor_le y
    rw [← hc1] at this; exact_mod_cast this
  have f2 : y < c' + 1 := by
    have := Int.lt_floor_add_one y
    rw [← hc1] at this; exact_mod_cast this
  have hc' : c' ≤ n := by
    have : (c' : Rat) < n + 1 := by linarith
    have : c' < n + 1 := by exact_mod_cast this
    omega
  have hcell : Spec.InCell (intKnot (q + 1)) (n + 1) y (q + 1 + c') := by
    rw [Spec.InCell, if_pos hy, intKnot, intKnot]
    push_cast
    constructor <;> linarith
  obtain ⟨F, hF⟩ : ∃ F : Nat → Rat, F = fun i => if c ≤ i ∧ i ≤ c + q then T (i - c) else 0 := ⟨_, rfl⟩
  obtain ⟨f, hf⟩ : ∃ f : Nat → Rat, f = fun i => if c ≤ i ∧ i ≤ c + (q + 1) then
      (if i = c + (q + 1) then T q else if i = c then -(T 0) else fl (T (i - 1 - c) - T (i - c))) else 0 := ⟨_, rfl⟩
  have hF0 : ∀ i, 0 ≤ F i := by
    intro i; rw [hF]; dsimp only
    split
    · exact k1 _ (by omega)
    · exact le_rfl
  refine ⟨s.1.set (q + 1) s.2.1, ?_, by simpa using m1, by omega, f,
    fun i => Spec.piece (intKnot (q + 1)) (q + 1 + c') (q + 1) i, q + 1 + c', hcell,
    fun i => isPiece_piece (intKnot_mono _) _ _ i _, ?_, ?_, ?_⟩
  · rw [Knots.evalDeriv, hd', Res.guardAbort_true, Res.ok_bind, hg, Res.ok_bind, Arr.wr_ok (by omega), Res.ok_bind, hk,
      Nat.add_sub_cancel, e, Res.ok_bind, Arr.rd_ok (by rw [hl.1]; omega) (hl.2 0 (by omega)), Res.ok_bind,
      Arr.wr_ok (by rw [hl.1]; omega), Res.ok_bind]
    rw [Nat.add_sub_cancel] at e2
    rw [e2, Res.ok_bind, Arr.wr_ok (by rw [m1]; omega)]
    rfl
  · intro r hr
    rw [hf, Arr.set_val]
    dsimp only
    rw [if_pos (show c ≤ c + r ∧ c + r ≤ c + (q + 1) by omega)]
    by_cases hrp : r = q + 1
    · rw [if_pos hrp, if_pos (by omega), m2, Nat.add_sub_cancel]
    · rw [if_neg hrp, if_neg (by omega), m3 r (by omega)]
      by_cases hr0 : r = 0
      · rw [if_pos hr0, if_pos (by omega)]
      · rw [if_neg hr0, if_neg (by omega), show c + r - 1 - c = r - 1 by omega, Nat.add_sub_cancel_left]
  · intro i hi
    rw [hf]; exact if_neg hi
  · have hE : ∀ i, (derivative (Spec.piece (intKnot (q + 1)) (q + 1 + c') (q + 1) i)).eval y =
        sh (cellValue q c' (y - c')) i - cellValue q c' (y - c') i := fun i => int_deriv f1 f2 hy i
    simp only [hE]
    have hff : ∀ i, |f i - (sh F i - F i)| ≤ 1 / 2 ^ 53 * (sh F i + F i) := by
      intro i
      have hshF : 0 ≤ sh F i := by
        rw [sh]; split
        · exact le_rfl
        · exact hF0 _
      have hnn : 0 ≤ 1 / 2 ^ 53 * (sh F i + F i) := mul_nonneg (by norm_num) (add_nonneg hshF (hF0 i))
      by_cases hi : c ≤ i ∧ i ≤ c + (q + 1)
      · by_cases hi1 : i = c + (q + 1)
        · have e1 : F i = 0 := by rw [hF]; exact if_neg (by omega)
          have e2 : sh F i = T q := by
            rw [sh, if_neg (by omega), hF]; dsimp only
            rw [if_pos (by omega)]; congr 1; omega
          have e3 : f i = T q := by rw [hf]; dsimp only; rw [if_pos hi, if_pos hi1]
          rw [e1, e2] at hnn ⊢
          rw [e3, sub_zero, sub_self, abs_zero]; exact hnn
        · have e1 : F i = T (i - c) := by rw [hF]; exact if_pos (by omega)
          by_cases hi2 : i = c
          · have e2 : sh F i = 0 := by
              rw [sh]; split
              · rfl
              · rw [hF]; exact if_neg (by omega)
            have e3 : f i = -(T 0) := by rw [hf]; dsimp only; rw [if_pos hi, if_neg hi1, if_pos hi2]
            rw [e1, e2] at hnn ⊢
            rw [e3, show i - c = 0 by omega] at *
            rw [zero_sub, sub_self, abs_zero]; exact hnn
          · have e2 : sh F i = T (i - 1 - c) := by
              rw [sh, if_neg (by omega), hF]; exact if_pos (by omega)
            have e3 : f i = fl (T (i - 1 - c) - T (i - c)) := by
              rw [hf]; dsimp only; rw [if_pos hi, if_neg hi1, if_neg hi2]
            rw [e1, e2, e3]
            refine (hfl.error _).trans ?_
            have t1 := k1 (i - 1 - c) (by omega)
            have t2 := k1 (i - c) (by omega)
            have : |T (i - 1 - c) - T (i - c)| ≤ T (i - 1 - c) + T (i - c) := by
              rw [abs_le]; constructor <;> linarith
            rw [one_div_mul_eq_div]
            gcongr
      · have e1 : F i = 0 := by rw [hF]; exact if_neg (by omega)
        have e2 : sh F i = 0 := by
          rw [sh]; split
          · rfl
          · rw [hF]; exact if_neg (by omega)
        have e3 : f i = 0 := by rw [hf]; exact if_neg hi
        rw [e1, e2, e3]; simp
    obtain ⟨u, hu⟩ : ∃ u : Rat, u = 1 / 2 ^ 53 := ⟨_, rfl⟩
    have hq0 : (0 : Rat) ≤ q := Nat.cast_nonneg q
    have hq1 : (q : Rat) ≤ 1048576 := by exact_mod_cast (show q ≤ 1048576 by omega)
    have hsum : ∑ i ∈ range (n + (q + 1) + 1), F i = ∑ r ∈ range (q + 1), T r := by
      rw [cell_sum (c := c) (p := q) (by omega) (fun i hi => by rw [hF]; exact if_neg hi)]
      refine sum_congr rfl fun r hr => ?_
      rw [mem_range] at hr
      rw [hF]; dsimp only
      rw [if_pos (by omega), Nat.add_sub_cancel_left]
    have hS : k.step * ∑ i ∈ range (n + (q + 1) + 1), F i ≤ 3 / 2 := by
      rw [hsum]
      have a1 := (abs_le.1 k2).2
      have a2 := (abs_le.1 hs1).2
      have a3 : 6 * (q : Rat) / 2 ^ 53 ≤ 1 / 8 := by norm_num; linarith
      have a4 := mul_le_mul_of_nonneg_right a3 s0n
      have a5 : ∑ r ∈ range (q + 1), T r ≤ 9 / 8 * fl (1 / k.step) := by linarith
      have a6 := mul_le_mul_of_nonneg_left a5 hs.le
      have a7 : (1 : Rat) / 2 ^ 53 ≤ 1 / 16 := by norm_num
      linarith
    have he1 : ∑ i ∈ range (n + (q + 1) + 1), |F i * k.step - cellValue q c o i| ≤ (q * (q + 13) + 3 / 2) / 2 ^ 53 := by
      rw [cell_sum (c := c) (p := q) (by omega) (f := fun i => |F i * k.step - cellValue q c o i|)
        (fun i hi => by rw [hF]; simp only [cellValue, if_neg hi, zero_mul, sub_self, abs_zero])]
      have tl := (tri_lines (L := uL o) (R := uR o) (L' := uL o) (R' := uR o) (p := q) (η := fun _ => 0)
        (fun j r _ hr => (uLR h0 h1 hr).1) (fun j r _ hr => (uLR h0 h1 hr).2.1) (fun j r _ hr => (uLR h0 h1 hr).2.2)
        (fun j r _ hr => (uLR h0 h1 hr).1) (fun j r _ hr => (uLR h0 h1 hr).2.1) (fun j r _ hr => (uLR h0 h1 hr).2.2)
        (fun j r _ hr => by simp) q (le_refl _))
      have key : ∀ r ∈ range (q + 1), |F (c + r) * k.step - cellValue q c o (c + r)| ≤
          k.step * |T r - tri (uL o) (uR o) (fl (1 / k.step)) q r| + 1 / 2 ^ 53 * tri (uL o) (uR o) 1 q r := by
        intro r hr
        rw [mem_range] at hr
        have e1 : F (c + r) = T r := by
          rw [hF]; dsimp only; rw [if_pos (by omega), Nat.add_sub_cancel_left]
        have e2 : cellValue q c o (c + r) = tri (uL o) (uR o) 1 q r := by
          rw [cellValue, if_pos (by omega), Nat.add_sub_cancel_left]
        rw [e1, e2]
        have t0 := tl.1 r (by omega)
        have e3 : T r * k.step - tri (uL o) (uR o) 1 q r = k.step * (T r - tri (uL o) (uR o) (fl (1 / k.step)) q r) +
            (fl (1 / k.step) * k.step - 1) * tri (uL o) (uR o) 1 q r := by
          rw [tri_scale _ _ (fl (1 / k.step))]; ring
        rw [e3]
        refine (abs_add_le _ _).trans ?_
        rw [abs_mul, abs_mul, abs_of_pos hs, abs_of_nonneg t0]
        have := mul_le_mul_of_nonneg_right hs1 t0
        linarith
      refine (sum_le_sum key).trans ?_
      rw [sum_add_distrib, ← mul_sum, ← mul_sum, tl.2.1, mul_one]
      have a1 := mul_le_mul_of_nonneg_left k3 hs.le
      have a2 := (abs_le.1 hs1).2
      have hw0 : (0 : Rat) ≤ q * (q + 13) / 2 ^ 53 := by positivity
      have a3 := mul_le_mul_of_nonneg_left (show fl (1 / k.step) * k.step ≤ 1 + 1 / 2 ^ 53 by linarith) hw0
      have a4 : (q : Rat) * (q + 13) ≤ 2 ^ 42 := by
        calc (q : Rat) * (q + 13) ≤ 1048576 * (1048576 + 13) := mul_le_mul hq1 (by linarith) (by linarith) (by norm_num)
          _ ≤ _ := by norm_num
      have a5 : (q : Rat) * (q + 13) / 2 ^ 53 * (1 / 2 ^ 53) ≤ 1 / 2 / 2 ^ 53 := by
        rw [div_mul_div_comm, mul_one, div_le_div_iff₀ (by norm_num) (by norm_num)]
        norm_num at a4 ⊢
        linarith
      rw [show ((q : Rat) * (q + 13) + 3 / 2) / 2 ^ 53 = q * (q + 13) / 2 ^ 53 + 1 / 2 / 2 ^ 53 + 1 / 2 ^ 53 by ring]
      linarith
    have he2 : ∑ i ∈ range (n + (q + 1) + 1), |cellValue q c o i - cellValue q c' (y - c') i| ≤ 2 * q * Δ := by
      have g := cellValue_near (p := q) (n := n) (o := o) (o' := y - c') (by omega) hc hc' h0 h1 (by linarith) (by linarith)
        (by rw [add_sub_cancel]; linarith)
      rw [add_sub_cancel] at g
      rw [sum_range_succ, show |cellValue q c o (n + (q + 1)) - cellValue q c' (y - c') (n + (q + 1))| = 0 by
        rw [cellValue, cellValue, if_neg (by omega), if_neg (by omega), sub_self, abs_zero], add_zero]
      exact g.trans (mul_le_mul_of_nonneg_left hd (by positivity))
    have he : ∑ i ∈ range (n + (q + 1) + 1), |F i * k.step - cellValue q c' (y - c') i| ≤
        (q * (q + 13) + 3 / 2) / 2 ^ 53 + 2 * q * Δ := by
      refine le_trans ?_ (add_le_add he1 he2)
      rw [← sum_add_distrib]
      exact sum_le_sum fun i _ => abs_sub_le _ _ _
    refine (sum_diffs hs.le hF0 hff hS he).trans ?_
    have hΔ0 : 0 ≤ Δ := (abs_nonneg _).trans hd
    push_cast
    have b1 : 2 / 2 ^ 53 * (3 / 2 : Rat) + 2 * ((q * (q + 13) + 3 / 2) / 2 ^ 53 + 2 * q * Δ) =
        2 * (q * (q + 13) + 3) / 2 ^ 53 + 4 * q * Δ := by ring
    rw [b1]
    refine add_le_add ?_ (by nlinarith)
    refine div_le_div_of_nonneg_right ?_ (by norm_num)
    nlinarith

/-- Uniform B-splines of degree at least two on `n` cells, whatever the rounding: at a coordinate between the first and the
last break points, `eval_deriv` returns the derivatives, at the distance from the first break point in units of the step, of
the B-splines on the integers, divided by the step.
Missing: the first B-spline has a number less than `n`, not just at most `n` (`C60_past_the_end`), if the coordinate is
close to the last break point.  Degree one, with discontinuous derivatives, is in `C65_uniform_degree_one_partial`. -/
theorem C65_uniform_partial (hfl : RoundsAll fl) {a b : Rat} (hab : a < b) {n p : Nat} (hn : 0 < n) (hn' : n + 1 < 2 ^ 31)
    (hp : 2 ≤ p) (hp' : p < 2 ^ 20) (hres : |a| * n ≤ 2 ^ 46 * (b - a)) {k : Knots} (hk : k = mkKnots fl a b n p) {x : Rat}
    (h1 : k.rmin fl ≤ x) (h2 : x ≤ k.rmax fl) (derivs : Arr Rat) (hv : derivs.size = p + 1) :
    ∃ (c : Nat) (v : Arr Rat), k.evalDeriv fl derivs x = .ok (v, (c : Int)) ∧ c ≤ n ∧
      (x - k.rmin fl ≤ (1 - 1 / 2 ^ 50) * (n * k.step) → c < n) ∧
      (x < k.rmax fl → DerivClose (intKnot p) (n + 1) p (n + p + 1) ((x - k.rmin fl) / k.step) c v k.step
        (2 * p * (p + 11) / 2 ^ 53 + p * (n + 1) / 2 ^ 48)) ∧
      (x = k.rmax fl → c + 1 = n ∧ DerivClose (intKnot p) (n + 1) p (n + p + 1) n c v k.step
        (2 * p * (p + 11) / 2 ^ 53)) := by
  obtain ⟨hs, hlen⟩ := knots_bounds hfl hab hn (by omega) hp'.le hres
  obtain ⟨c, o, e, k1, k2, k3, k4, k5, k6, k7⟩ := C58_uniform_partial hfl hab hn hn' hp'.le hres hk h1 h2
  rw [← hk] at hs hlen
  obtain ⟨c, rfl⟩ := Int.eq_ofNat_of_zero_le k1
  have hkp : k.p = p := by rw [hk]; rfl
  have hn0 : (n : Rat) + 1 < 2 ^ 31 := by exact_mod_cast hn'
  have hy0 : 0 ≤ (x - k.rmin fl) / k.step := div_nonneg (by linarith) hs.le
  rcases lt_or_eq_of_le h2 with hx | hx
  · have hy : (x - k.rmin fl) / k.step < n + 1 := by
      rw [div_lt_iff₀ hs]
      have := (abs_le.1 hlen).2
      linarith
    have k5 := k5 hx
    rw [Int.cast_natCast] at k5
    obtain ⟨v, e1, e2⟩ := ubs_evalDerivR (n := n) hfl hp hp' hkp hs e (by omega) k3 k4 hy0 hy k5
      (by norm_num at *; linarith) hv
    refine ⟨c, v, e1, by omega, fun h => by have := k6 h; omega, fun _ => ?_, fun h => absurd h hx.ne⟩
    rwa [show 2 * (p : Rat) * (p + 11) / 2 ^ 53 + 4 * p * (1 / 2 ^ 50 * (n + 1)) =
      2 * p * (p + 11) / 2 ^ 53 + p * (n + 1) / 2 ^ 48 by ring] at e2
  · have k7' := k7 hx
    have hc : c + 1 = n := by omega
    have ho : o = 1 := by
      have hlt : ¬ x ≤ k.rmin fl := by
        rw [hx, not_le]
        have := (abs_le.1 hlen).1
        have := mul_le_mul_of_nonneg_right (show (1 : Rat) ≤ n by exact_mod_cast hn) hs.le
        linarith
      rw [getIcellAndOffset, inside_ok hfl h1 h2, Res.ok_bind, if_neg hlt, if_pos hx.ge] at e
      exact (Prod.ext_iff.1 (Res.ok.inj e)).2.symm
    obtain ⟨v, e1, e2⟩ := ubs_evalDerivR (n := n) (y := n) (Δ := 0) hfl hp hp' hkp hs e (by omega) k3 k4 (Nat.cast_nonneg n)
      (by linarith) (by rw [ho, ← hc]; push_cast; simp) (by norm_num) hv
    refine ⟨c, v, e1, by omega, fun h => by have := k6 h; omega, fun h => absurd hx h.ne, fun _ => ⟨hc, ?_⟩⟩
    simpa using e2

/-- Uniform B-splines of degree one: the two derivatives are the opposite slopes `∓1/step` of the cell of the coordinate,
up to the relative error of one division. -/
theorem C65_uniform_degree_one_partial (hfl : RoundsAll fl) {a b : Rat} (hab : a < b) {n : Nat} (hn : 0 < n)
    (hn' : n + 1 < 2 ^ 31) (hres : |a| * n ≤ 2 ^ 46 * (b - a)) {k : Knots} (hk : k = mkKnots fl a b n 1) {x : Rat}
    (h1 : k.rmin fl ≤ x) (h2 : x ≤ k.rmax fl) (derivs : Arr Rat) (hv : derivs.size = 2) :
    ∃ (c : Nat) (v : Arr Rat) (d : Rat), k.evalDeriv fl derivs x = .ok (v, (c : Int)) ∧ v.rd 0 = .ok (-d) ∧
      v.rd 1 = .ok d ∧ |d - 1 / k.step| ≤ 1 / 2 ^ 53 * (1 / k.step) ∧ c ≤ n ∧
      (x - k.rmin fl ≤ (1 - 1 / 2 ^ 50) * (n * k.step) → c < n) ∧ (x = k.rmax fl → c + 1 = n) ∧
      (x < k.rmax fl → (c : Rat) - (n + 1) / 2 ^ 50 ≤ (x - k.rmin fl) / k.step ∧
        (x - k.rmin fl) / k.step ≤ c + 1 + (n + 1) / 2 ^ 50) := by
  obtain ⟨hs, -⟩ := knots_bounds (p := 1) hfl hab hn (by omega) (by norm_num) hres
  obtain ⟨c, o, e, k1, k2, k3, k4, k5, k6, k7⟩ := C58_uniform_partial hfl hab hn hn' (by norm_num) hres hk h1 h2
  rw [← hk] at hs
  obtain ⟨c, rfl⟩ := Int.eq_ofNat_of_zero_le k1
  have hkp : k.p = 1 := by rw [hk]; rfl
  have e0 : derivs.wr 0 (fl (1 / k.step)) = .ok (derivs.set 0 (fl (1 / k.step))) := Arr.wr_ok (show 0 < derivs.size by omega) _
  have s0 : (derivs.set 0 (fl (1 / k.step))).size = 2 := hv
  have v0 : (derivs.set 0 (fl (1 / k.step))).val 0 = some (fl (1 / k.step)) := by rw [Arr.set_val]; simp
  obtain ⟨w, hw⟩ : ∃ w, w = derivs.set 0 (fl (1 / k.step)) := ⟨_, rfl⟩
  rw [← hw] at e0 s0 v0
  refine ⟨c, (w.set 0 (-fl (1 / k.step))).set 1 (fl (1 / k.step)), fl (1 / k.step), ?_, ?_, ?_, ?_, by omega,
    fun h => by have := k6 h; omega, fun h => by have := k7 h; omega, fun h => ?_⟩
  · rw [Knots.evalDeriv, hkp, show (1 : Nat) - 1 = 0 from rfl, show decide (derivs.size = 1 + 1) = true by simp [hv],
      Res.guardAbort_true, Res.ok_bind, e, Res.ok_bind, e0, Res.ok_bind]
    simp only [forLoop, Res.ok_bind, Arr.rd_ok (show 0 < w.size by omega) v0, Arr.wr_ok (show 0 < w.size by omega)]
    rw [Arr.wr_ok (show 1 < (w.set 0 (-fl (1 / k.step))).size from s0 ▸ Nat.one_lt_two)]
    rfl
  · refine Arr.rd_ok (a := (w.set 0 (-fl (1 / k.step))).set 1 (fl (1 / k.step))) (show 0 < w.size by omega) ?_
    rw [Arr.set_val, Arr.set_val]
    simp
  · refine Arr.rd_ok (a := (w.set 0 (-fl (1 / k.step))).set 1 (fl (1 / k.step))) (show 1 < w.size by omega) ?_
    rw [Arr.set_val]
    simp
  · have := hfl.error (1 / k.step)
    rw [abs_of_pos (by positivity : 0 < 1 / k.step)] at this
    linarith
  · have k5 := abs_le.1 (k5 h)
    rw [Int.cast_natCast, div_mul_eq_mul_div, one_mul] at k5
    constructor <;> linarith [k5.1, k5.2]

/-- Cubic splines with unequal cells, a double break point and the rounding of IEEE 754. -/
example : ∃ u, NUBS.mk' 3 false [(0 : Rat), 1, 3, 4, 6, 6, 7] = .ok u ∧ ∃ m v,
    Rounded.evalDeriv round53 u (Arr.uninit 4) (round53 (16 / 3)) = .ok (v, el1 (BitVec.ofNat 64 m)) ∧
    ∃ t b, DerivNear t b 3 (round53 (16 / 3)) m v (24 / 2 ^ 53) := by
  obtain ⟨u, t, e, -, k1, -, k2⟩ := C65_non_uniform round53_all 3 (by norm_num) (by norm_num)
    [(0 : Rat), 1, 3, 4, 6, 6, 7] ⟨by decide, (isSorted_iff _).1 (by decide +kernel), by decide +kernel, by decide +kernel⟩ (by decide)
  obtain ⟨m, v, -, e1, e2⟩ := k2 (round53 (16 / 3))
    (by rw [show 3 = 3 + 0 by rfl, k1 0 (by decide)]; decide +kernel) (by rw [k1 _ (by decide)]; decide +kernel) (Arr.uninit 4) rfl
  rw [show 8 * ((3 : Nat) : Rat) / 2 ^ 53 = 24 / 2 ^ 53 by norm_num] at e2
  exact ⟨u, e, m, v, e1, t, _, e2⟩

/-- Periodic ones. -/
example : ∃ u, Rounded.mkNubs round53 3 true [round53 (1 / 10), round53 (3 / 10), 1, 2, 2, round53 (31 / 10)] = .ok u ∧ ∃ m v,
    Rounded.evalDeriv round53 u (Arr.uninit 4) (round53 (4 / 3)) = .ok (v, el1 (BitVec.ofNat 64 m)) := by
  obtain ⟨u, t, e, -, k1, -, k2⟩ := C65_periodic_non_uniform round53_all 3 (by norm_num) (by norm_num)
    [round53 (1 / 10), round53 (3 / 10), 1, 2, 2, round53 (31 / 10)]
    ⟨⟨by decide, (isSorted_iff _).1 (by decide +kernel), by decide +kernel, by decide +kernel⟩,
      by decide +kernel, by decide +kernel, by decide +kernel, by decide +kernel⟩ (by decide)
  obtain ⟨m, v, -, e1, -⟩ := k2 (round53 (4 / 3))
    (by rw [show 3 = 3 + 0 by rfl, k1 0 (by decide)]; decide +kernel) (by rw [k1 _ (by decide)]; decide +kernel) (Arr.uninit 4) rfl
  exact ⟨u, e, m, v, e1⟩

/-- Uniform ones: the error is at most `2⁻⁴¹` divided by the step. -/
example : ∃ (c : Nat) (v : Arr Rat), (mkKnots round53 0 (round53 (31 / 10)) 10 3).evalDeriv round53 (Arr.uninit 4) (round53 (3 / 2)) =
    .ok (v, (c : Int)) ∧ ∃ t b y h, DerivClose t b 3 14 y c v h (1 / 2 ^ 41) := by
  obtain ⟨c, v, e, -, -, h, -⟩ := C65_uniform_partial (a := 0) (b := round53 (31 / 10)) (n := 10) (p := 3)
    (x := round53 (3 / 2)) round53_all (by decide +kernel) (by norm_num) (by norm_num) (by norm_num) (by norm_num)
    (by norm_num; decide +kernel) rfl (by decide +kernel) (by decide +kernel) (Arr.uninit 4) rfl
  obtain ⟨h1, h2, f, P, c', k1, k2, k3, k4, k5⟩ := h (by decide +kernel)
  exact ⟨c, v, e, _, _, _, _, h1, h2, f, P, c', k1, k2, k3, k4, k5.trans (by norm_num)⟩

/-- Degree one. -/
example : ∃ (c : Nat) (v : Arr Rat) (d : Rat), (mkKnots round53 0 (round53 (31 / 10)) 10 1).evalDeriv round53 (Arr.uninit 2)
    (round53 (3 / 2)) = .ok (v, (c : Int)) ∧ v.rd 0 = .ok (-d) ∧ v.rd 1 = .ok d ∧ c < 10 := by
  obtain ⟨c, v, d, e, h1, h2, -, -, h3, -⟩ := C65_uniform_degree_one_partial (a := 0) (b := round53 (31 / 10)) (n := 10)
    (x := round53 (3 / 2)) round53_all (by decide +kernel) (by norm_num) (by norm_num)
    (by norm_num; decide +kernel) rfl (by decide +kernel) (by decide +kernel) (Arr.uninit 2) rfl
  exact ⟨c, v, d, e, h1, h2, h3 (by decide +kernel)⟩

end DDC.Props
