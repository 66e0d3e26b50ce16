import Verif.Props.C61

/-!
# C61, continued: periodic evaluators of splines in one dimension with rounding
-/

namespace DDC.Props

open One Rounded Spec Finset

variable {fl : Rat → Rat}

/-- The wrapped coordinate differs from the coordinate by a whole number of periods and a small error, and is inside of
the domain up to that error. -/
theorem wrapOf_near (hfl : RoundsAll fl) {r R : Rat} (hr : r < R) {x : Rat}
    (hx : |x - r| ≤ 16 * fl (R - r)) (h0 : |r| ≤ 16 * fl (R - r)) :
    ∃ m : Int, |wrapOf fl r R x + m * (R - r) - x| ≤ 64 / 2 ^ 53 * (R - r) ∧
      r - 88 / 2 ^ 53 * (R - r) ≤ wrapOf fl r R x ∧
      wrapOf fl r R x ≤ R + 88 / 2 ^ 53 * (R - r) := by
  rw [wrapOf]
  have hd : 0 < R - r := sub_pos.2 hr
  by_cases c : x < r ∨ R < x
  swap
  · rw [if_neg c]
    rw [not_or, not_lt, not_lt] at c
    refine ⟨0, ?_, by linarith [c.1], by linarith [c.2]⟩
    simp only [Int.cast_zero, zero_mul, add_zero, sub_self, abs_zero]
    positivity
  rw [if_pos c]
  obtain ⟨L, hLe⟩ : ∃ L, L = fl (R - r) := ⟨_, rfl⟩
  rw [← hLe] at hx h0 ⊢
  have L1 := fl_le hfl hd.le
  have L2 := le_fl hfl hd.le
  rw [← hLe] at L1 L2
  have hLp : 0 < L := by
    have : 0 < (1 - 1 / 2 ^ 53) * (R - r) := mul_pos (by norm_num) hd
    linarith
  obtain ⟨d, hdd⟩ : ∃ d, d = fl (x - r) := ⟨_, rfl⟩
  have d1 := hfl.error (x - r)
  rw [← hdd] at d1 ⊢
  obtain ⟨q, hq⟩ : ∃ q, q = fl (d / L) := ⟨_, rfl⟩
  have q1 := hfl.error (d / L)
  rw [← hq] at q1 ⊢
  obtain ⟨m, hm⟩ : ∃ m, m = ⌊q⌋ := ⟨_, rfl⟩
  have m1 := Int.floor_le q
  have m2 := Int.lt_floor_add_one q
  rw [← hm] at m1 m2 ⊢
  have hdabs : |d| ≤ 17 * L := by
    have h1 : |d| ≤ |d - (x - r)| + |x - r| := by
      have := abs_add_le (d - (x - r)) (x - r)
      rwa [sub_add_cancel] at this
    linarith
  have qL : |q * L - d| ≤ 1 / 2 ^ 53 * |d| := by
    have h1 : q * L - d = (q - d / L) * L := by field_simp
    have h2 : |d / L| * L = |d| := by rw [abs_div, abs_of_pos hLp]; field_simp
    rw [h1, abs_mul, abs_of_pos hLp]
    calc |q - d / L| * L ≤ |d / L| / 2 ^ 53 * L := mul_le_mul_of_nonneg_right q1 hLp.le
      _ = 1 / 2 ^ 53 * |d| := by rw [← h2]; ring
  obtain ⟨M, hM⟩ : ∃ M, M = (m : Rat) * L := ⟨_, rfl⟩
  have M1 : M ≤ q * L := by rw [hM]; exact mul_le_mul_of_nonneg_right m1 hLp.le
  have M2 : q * L ≤ M + L := by
    have := mul_le_mul_of_nonneg_right m2.le hLp.le
    rw [hM]; linarith
  obtain ⟨g1, g2⟩ := abs_le.1 qL
  obtain ⟨g3, g4⟩ := abs_le.1 d1
  obtain ⟨g5, g6⟩ := abs_le.1 hdabs
  have Mabs : |M| ≤ 19 * L := abs_le.2 ⟨by linarith, by linarith⟩
  have mabs : |(m : Rat)| ≤ 19 := by
    rw [hM, abs_mul, abs_of_pos hLp] at Mabs
    exact le_of_mul_le_mul_right Mabs hLp
  -- the number of periods with the exact period
  have mL : |(m : Rat) * (R - r) - M| ≤ 19 / 2 ^ 53 * (R - r) := by
    have h1 : (m : Rat) * (R - r) - M = m * (R - r - L) := by rw [hM]; ring
    have h2 : |R - r - L| ≤ 1 / 2 ^ 53 * (R - r) := abs_le.2 ⟨by linarith, by linarith⟩
    rw [h1, abs_mul]
    calc |(m : Rat)| * |R - r - L| ≤ 19 * (1 / 2 ^ 53 * (R - r)) :=
          mul_le_mul mabs h2 (abs_nonneg _) (by norm_num)
      _ = _ := by ring
  have e1 := hfl.error M
  rw [← hM]
  obtain ⟨F, hF⟩ : ∃ F, F = fl M := ⟨_, rfl⟩
  rw [← hF] at e1 ⊢
  obtain ⟨g7, g8⟩ := abs_le.1 e1
  obtain ⟨g9, g10⟩ := abs_le.1 h0
  have zabs : |x - F| ≤ 18 * L := abs_le.2 ⟨by linarith, by linarith⟩
  have e2 := hfl.error (x - F)
  obtain ⟨W, hW⟩ : ∃ W, W = fl (x - F) := ⟨_, rfl⟩
  rw [← hW] at e2 ⊢
  obtain ⟨g11, g12⟩ := abs_le.1 e2
  obtain ⟨g13, g14⟩ := abs_le.1 mL
  refine ⟨m, abs_le.2 ⟨?_, ?_⟩, ?_, ?_⟩ <;> norm_num at * <;> linarith

theorem wrap_near (hfl : RoundsAll fl) {k : Knots} (hr : k.rmin fl < k.rmax fl) {x : Rat}
    (hx : |x - k.rmin fl| ≤ 16 * k.length fl) (h0 : |k.rmin fl| ≤ 16 * k.length fl) :
    ∃ m : Int, |wrap fl k x + m * (k.rmax fl - k.rmin fl) - x| ≤ 64 / 2 ^ 53 * (k.rmax fl - k.rmin fl) ∧
      k.rmin fl - 88 / 2 ^ 53 * (k.rmax fl - k.rmin fl) ≤ wrap fl k x ∧
      wrap fl k x ≤ k.rmax fl + 88 / 2 ^ 53 * (k.rmax fl - k.rmin fl) := wrapOf_near hfl hr hx h0

/-- The evaluation of a periodic spline is the evaluation at a coordinate of the domain that differs from `x` by a whole
number of periods and a small error. -/
theorem periodic_eval (hfl : RoundsAll fl) {k : Knots} (hr : k.rmin fl < k.rmax fl) {x : Rat}
    (hx : |x - k.rmin fl| ≤ 16 * k.length fl) (h0 : |k.rmin fl| ≤ 16 * k.length fl)
    (lower upper : Rat → Coefs Rat → Res Rat) (coef : Coefs Rat) :
    ∃ (z : Rat) (m : Int), k.rmin fl ≤ z ∧ z ≤ k.rmax fl ∧
      |z + m * (k.rmax fl - k.rmin fl) - x| ≤ 1 / 2 ^ 45 * (k.rmax fl - k.rmin fl) ∧
      (k.rmin fl ≤ x → x ≤ k.rmax fl → z = x) ∧
      k.eval fl true lower upper x coef = k.evalNoBc fl z coef := by
  have hd : 0 < k.rmax fl - k.rmin fl := sub_pos.2 hr
  have hin := wrap_inside hfl hr hx h0
  obtain ⟨m, hm, w1, w2⟩ := wrap_near hfl hr hx h0
  have heval : k.eval fl true lower upper x coef = k.evalNoBc fl (wrap fl k x) coef := by
    rw [Knots.eval, if_pos rfl]
  rw [heval]
  have hcongr : ∀ w z, getIcellAndOffset fl k w = getIcellAndOffset fl k z →
      k.evalNoBc fl w coef = k.evalNoBc fl z coef := by
    intro w z h
    simp only [Knots.evalNoBc, Knots.evalBasis, h]
  have hid : k.rmin fl ≤ x → x ≤ k.rmax fl → wrap fl k x = x := by
    intro h1 h2
    rw [wrap, wrapOf, if_neg]
    rw [not_or, not_lt, not_lt]; exact ⟨h1, h2⟩
  by_cases c1 : wrap fl k x ≤ k.rmin fl
  · refine ⟨k.rmin fl, m, le_rfl, hr.le, ?_, ?_, ?_⟩
    · rw [abs_le] at hm ⊢
      constructor <;> norm_num at * <;> linarith [hm.1, hm.2]
    · intro h1 h2
      rw [hid h1 h2] at c1
      exact le_antisymm h1 c1
    · refine hcongr _ _ ?_
      rw [getIcellAndOffset, hin, getIcellAndOffset, inside_ok hfl le_rfl hr.le, if_pos c1, if_pos le_rfl]
  · by_cases c2 : k.rmax fl ≤ wrap fl k x
    · refine ⟨k.rmax fl, m, hr.le, le_rfl, ?_, ?_, ?_⟩
      · rw [abs_le] at hm ⊢
        constructor <;> norm_num at * <;> linarith [hm.1, hm.2]
      · intro h1 h2
        rw [hid h1 h2] at c2
        exact le_antisymm c2 h2
      · refine hcongr _ _ ?_
        rw [getIcellAndOffset, hin, getIcellAndOffset, inside_ok hfl hr.le le_rfl, if_neg c1, if_pos c2,
          if_neg (not_le.2 hr), if_pos le_rfl]
    · refine ⟨wrap fl k x, m, (not_le.1 c1).le, (not_le.1 c2).le, hm.trans ?_, hid, rfl⟩
      exact mul_le_mul_of_nonneg_right (by norm_num) hd.le

/-- Periodic evaluators on uniform B-splines: for a coordinate within 16 periods of the domain, the result is the value of
the spline, up to the error of `C61_uniform_partial`, at a coordinate `z` of the domain that differs from `x` by a whole
number of periods and at most `2⁻⁴⁵` period.  The extrapolation rules take no part.
Missing, because false in the code: coordinates that are farther (`C58_far_aborts`) and no out-of-bounds read next to the
upper end (`C61_past_the_end`). -/
theorem C61_periodic_partial (hfl : RoundsAll fl) {a b : Rat} (hab : a < b) {n p : Nat} (hn : 0 < n) (hn' : n + 1 < 2 ^ 31)
    (hp : 0 < p) (hp' : p < 2 ^ 20) (hres : |a| * n ≤ 2 ^ 46 * (b - a)) {k : Knots} (hk : k = mkKnots fl a b n p) {x : Rat}
    (hx : |x - k.rmin fl| ≤ 16 * k.length fl) (h0 : |k.rmin fl| ≤ 16 * k.length fl)
    (lower upper : Rat → Coefs Rat → Res Rat) (c : Nat → Rat) {M : Rat} (hc : ∀ i, i < n + p → |c i| ≤ M) :
    ∃ (z : Rat) (m : Int), k.rmin fl ≤ z ∧ z ≤ k.rmax fl ∧
      |z + m * (k.rmax fl - k.rmin fl) - x| ≤ 1 / 2 ^ 45 * (k.rmax fl - k.rmin fl) ∧
      (k.rmin fl ≤ x → x ≤ k.rmax fl → z = x) ∧
      ((∃ y, k.eval fl true lower upper x (coefsOf (n + p) c) = .ok y ∧
        (z < k.rmax fl →
          |y - ∑ i ∈ range (n + p), c i * Spec.bspline (intKnot p) (n + 1) p i ((z - k.rmin fl) / k.step)| ≤
            (p * (p + 15) / 2 ^ 53 + 3 / 2 ^ 53 + p * (n + 1) / 2 ^ 49) * M) ∧
        (z = k.rmax fl →
          |y - ∑ i ∈ range (n + p), c i * Spec.bspline (intKnot p) (n + 1) p i n| ≤
            (p * (p + 15) / 2 ^ 53 + 3 / 2 ^ 53) * M)) ∨
      (k.eval fl true lower upper x (coefsOf (n + p) c) = .ub ∧ (1 - 1 / 2 ^ 50) * (n * k.step) < z - k.rmin fl ∧
        z < k.rmax fl)) := by
  obtain ⟨hs, hlen⟩ := knots_bounds hfl hab hn (by omega) hp'.le hres
  rw [← hk] at hs hlen
  have hn0 : (1 : Rat) ≤ n := by exact_mod_cast hn
  have hr : k.rmin fl < k.rmax fl := by
    have h1 := (abs_le.1 hlen).1
    have h2 := mul_le_mul_of_nonneg_right hn0 hs.le
    linarith
  obtain ⟨z, m, z1, z2, z3, z4, z5⟩ := periodic_eval hfl hr hx h0 lower upper (coefsOf (n + p) c)
  refine ⟨z, m, z1, z2, z3, z4, ?_⟩
  rw [z5]
  exact uniform_evalNoBcR hfl hab hn hn' hp hp' hres hk z1 z2 c hc

/-- Three and a half periods away, with the rounding of IEEE 754. -/
example (c : Nat → Rat) (hc : ∀ i, i < 23 → |c i| ≤ 1) : ∃ z : Rat, ∃ m : Int,
    |z + m * ((mkKnots round53 (-2) (round53 (27 / 10)) 20 3).rmax round53 -
      (mkKnots round53 (-2) (round53 (27 / 10)) 20 3).rmin round53) - 15| ≤ 1 / 2 ^ 42 := by
  obtain ⟨z, m, -, -, h, -⟩ := C61_periodic_partial (a := -2) (b := round53 (27 / 10)) (n := 20) (p := 3)
    (x := 15) round53_all (by decide +kernel) (by norm_num) (by norm_num) (by norm_num) (by norm_num) (by decide +kernel)
    rfl (by decide +kernel) (by decide +kernel) (fun _ _ => .ub) (fun _ _ => .ub) c hc
  exact ⟨z, m, h.trans (by decide +kernel)⟩

end DDC.Props
