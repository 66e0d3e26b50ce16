import Verif.Model.Rounded
import Verif.Spec.Float
import Verif.Props.C34

/-!
# C58: locating a coordinate, with rounding
-/

namespace DDC.Props

open Rounded Spec One

variable {fl : Rat → Rat}

theorem fl_le (hfl : RoundsAll fl) {q : Rat} (hq : 0 ≤ q) : fl q ≤ (1 + 1 / 2 ^ 53) * q := by
  have := (abs_le.1 (hfl.error q)).2
  rw [abs_of_nonneg hq] at this
  linarith

theorem le_fl (hfl : RoundsAll fl) {q : Rat} (hq : 0 ≤ q) : (1 - 1 / 2 ^ 53) * q ≤ fl q := by
  have := (abs_le.1 (hfl.error q)).1
  rw [abs_of_nonneg hq] at this
  linarith

theorem fl_nonneg (hfl : RoundsAll fl) {q : Rat} (hq : 0 ≤ q) : 0 ≤ fl q := by
  have h := le_fl hfl hq
  have : (0 : Rat) ≤ (1 - 1 / 2 ^ 53) * q := mul_nonneg (by norm_num) hq
  linarith

theorem fl_nonpos (hfl : RoundsAll fl) {q : Rat} (hq : q ≤ 0) : fl q ≤ 0 := by
  have := hfl.mono q 0 hq
  have h0 := hfl.exact 0 (by norm_num)
  simp only [Int.cast_zero] at h0
  linarith

theorem fl_one (hfl : RoundsAll fl) : fl 1 = 1 := by
  have := hfl.exact 1 (by norm_num)
  simpa using this

theorem inside_ok (hfl : RoundsAll fl) {x a b : Rat} (h1 : a ≤ x) (h2 : x ≤ b) : Rounded.checkInside fl x a b = .ok () := by
  have e0 : fl (-(fl (b - a)) * fl (1 / 10 ^ 14)) ≤ 0 := by
    apply fl_nonpos hfl
    have h3 := fl_nonneg hfl (sub_nonneg.2 (h1.trans h2))
    have h4 : 0 ≤ fl (1 / 10 ^ 14) := fl_nonneg hfl (by norm_num)
    have := mul_nonneg h3 h4
    linarith
  have e1 := fl_nonneg hfl (sub_nonneg.2 h1)
  have e2 := fl_nonneg hfl (sub_nonneg.2 h2)
  have c1 : decide (fl (-(fl (b - a)) * fl (1 / 10 ^ 14)) ≤ fl (x - a)) = true := by
    simpa only [decide_eq_true_eq] using e0.trans e1
  have c2 : decide (fl (-(fl (b - a)) * fl (1 / 10 ^ 14)) ≤ fl (b - x)) = true := by
    simpa only [decide_eq_true_eq] using e0.trans e2
  rw [Rounded.checkInside, c1, c2]
  rfl

/-- The knots of uniform B-splines: a positive step, each knot is a number of steps away from the lower bound up to an
eighth of a step, and the lower bound is at most `2⁴⁹` steps away from the origin. -/
theorem knots_coordinate (hfl : RoundsAll fl) {a b : Rat} (hab : a < b) {n p : Nat} (hn : 0 < n) (hn' : n < 2 ^ 31)
    (hp : p ≤ 2 ^ 20) (hres : |a| * n ≤ 2 ^ 46 * (b - a)) {j : Nat} (hj : j ≤ n) :
    0 < (mkKnots fl a b n p).step ∧
      |(mkKnots fl a b n p).coordinate fl (p + j) - (mkKnots fl a b n p).rmin fl - j * (mkKnots fl a b n p).step| ≤
        1 / 8 * (mkKnots fl a b n p).step ∧
      |(mkKnots fl a b n p).rmin fl| ≤ 2 ^ 49 * (mkKnots fl a b n p).step := by
  have hn0 : (0 : Rat) < n := by exact_mod_cast hn
  have hn1 : (n : Rat) ≤ 2 ^ 31 := by exact_mod_cast hn'.le
  have hp0 : (0 : Rat) ≤ p := by positivity
  have hp1 : (p : Rat) ≤ 2 ^ 20 := by exact_mod_cast hp
  have hd : 0 < b - a := sub_pos.2 hab
  obtain ⟨s, hs⟩ : ∃ s, s = fl (fl (b - a) / n) := ⟨_, rfl⟩
  have hs0 : 1 / 2 * ((b - a) / n) ≤ s := by
    have h1 := le_fl hfl hd.le
    have h2 : (1 - 1 / 2 ^ 53) * (b - a) / n ≤ fl (b - a) / n := by gcongr
    have h3 := le_fl hfl (q := fl (b - a) / n) (div_nonneg (fl_nonneg hfl hd.le) hn0.le)
    have h4 : (0 : Rat) ≤ (b - a) / n := (div_pos hd hn0).le
    rw [mul_div_assoc] at h2
    rw [hs]
    have h5 : (1 - 1 / 2 ^ 53 : Rat) * ((1 - 1 / 2 ^ 53) * ((b - a) / n)) ≤ (1 - 1 / 2 ^ 53) * (fl (b - a) / n) :=
      mul_le_mul_of_nonneg_left h2 (by norm_num)
    have h6 : (1 / 2 : Rat) * ((b - a) / n) ≤ (1 - 1 / 2 ^ 53) * ((1 - 1 / 2 ^ 53) * ((b - a) / n)) := by
      rw [← mul_assoc]
      exact mul_le_mul_of_nonneg_right (by norm_num) h4
    linarith
  have hspos : 0 < s := lt_of_lt_of_le (by positivity) hs0
  have ha : |a| ≤ 2 ^ 47 * s := by
    have h1 : |a| ≤ 2 ^ 46 * ((b - a) / n) := by
      rw [← mul_div_assoc, le_div_iff₀ hn0]; exact hres
    linarith
  obtain ⟨P, hP⟩ : ∃ P, P = (p : Rat) * s := ⟨_, rfl⟩
  obtain ⟨N, hN⟩ : ∃ N, N = (j : Rat) * s := ⟨_, rfl⟩
  have hP0 : 0 ≤ P := by rw [hP]; positivity
  have hN0 : 0 ≤ N := by rw [hN]; positivity
  have hP1 : P ≤ 2 ^ 20 * s := by rw [hP]; gcongr
  have hN1 : N ≤ 2 ^ 31 * s := by
    have : (j : Rat) ≤ 2 ^ 31 := by exact_mod_cast (show j ≤ 2 ^ 31 by omega)
    rw [hN]; gcongr
  have hPN : ((p + j : Nat) : Rat) * s = P + N := by rw [hP, hN]; push_cast; ring
  have f1 := fl_le hfl hP0
  have f2 := le_fl hfl hP0
  have f3 := fl_le hfl (add_nonneg hP0 hN0)
  have f4 := le_fl hfl (add_nonneg hP0 hN0)
  obtain ⟨o, ho⟩ : ∃ o, o = fl (a - fl P) := ⟨_, rfl⟩
  have ho1 : |o| ≤ 2 ^ 48 * s := by
    have h1 := hfl.error (a - fl P)
    rw [← ho] at h1
    have h2 : |o| ≤ |o - (a - fl P)| + |a - fl P| := by
      have := abs_add_le (o - (a - fl P)) (a - fl P)
      rwa [sub_add_cancel] at this
    have h3 : |a - fl P| ≤ |a| + |fl P| := abs_sub a (fl P)
    have h4 : |fl P| ≤ 2 * P := by
      rw [abs_of_nonneg (fl_nonneg hfl hP0)]; linarith
    linarith
  have e1 := hfl.error (o + fl P)
  have e2 := hfl.error (o + fl (P + N))
  have g1 : |o + fl P| ≤ 2 ^ 48 * s + 2 * P := by
    refine (abs_add_le _ _).trans (add_le_add ho1 ?_)
    rw [abs_of_nonneg (fl_nonneg hfl hP0)]; linarith
  have g2 : |o + fl (P + N)| ≤ 2 ^ 48 * s + 2 * (P + N) := by
    refine (abs_add_le _ _).trans (add_le_add ho1 ?_)
    rw [abs_of_nonneg (fl_nonneg hfl (add_nonneg hP0 hN0))]; linarith
  have r1 : (mkKnots fl a b n p).rmin fl = fl (o + fl P) := by
    rw [Knots.rmin, Knots.coordinate]; simp only [mkKnots]; rw [← hs, ← hP, ← ho]
  have r2 : (mkKnots fl a b n p).coordinate fl (p + j) = fl (o + fl (P + N)) := by
    rw [Knots.coordinate]; simp only [mkKnots]; rw [← hs, ← hP, ← ho, hPN]
  have r3 : (mkKnots fl a b n p).step = s := hs.symm
  rw [r1, r2, r3, ← hN]
  have g3 : |fl (o + fl P)| ≤ |fl (o + fl P) - (o + fl P)| + |o + fl P| := by
    have := abs_add_le (fl (o + fl P) - (o + fl P)) (o + fl P)
    rwa [sub_add_cancel] at this
  refine ⟨hspos, ?_, by linarith⟩
  rw [abs_le] at e1 e2 ⊢
  constructor <;> linarith

/-- The knots of uniform B-splines: a positive step, the length is the number of steps up to an eighth of a step,
and the lower bound is at most `2⁴⁹` steps away from the origin. -/
theorem knots_bounds3 (hfl : RoundsAll fl) {a b : Rat} (hab : a < b) {n p : Nat} (hn : 0 < n) (hn' : n < 2 ^ 31)
    (hp : p ≤ 2 ^ 20) (hres : |a| * n ≤ 2 ^ 46 * (b - a)) :
    0 < (mkKnots fl a b n p).step ∧
      |(mkKnots fl a b n p).rmax fl - (mkKnots fl a b n p).rmin fl - n * (mkKnots fl a b n p).step| ≤
        1 / 8 * (mkKnots fl a b n p).step ∧
      |(mkKnots fl a b n p).rmin fl| ≤ 2 ^ 49 * (mkKnots fl a b n p).step :=
  knots_coordinate hfl hab hn hn' hp hres (le_refl n)

/-- The first two of these bounds. -/
theorem knots_bounds (hfl : RoundsAll fl) {a b : Rat} (hab : a < b) {n p : Nat} (hn : 0 < n) (hn' : n < 2 ^ 31)
    (hp : p ≤ 2 ^ 20) (hres : |a| * n ≤ 2 ^ 46 * (b - a)) :
    0 < (mkKnots fl a b n p).step ∧
      |(mkKnots fl a b n p).rmax fl - (mkKnots fl a b n p).rmin fl - n * (mkKnots fl a b n p).step| ≤
        1 / 8 * (mkKnots fl a b n p).step :=
  have h := knots_bounds3 hfl hab hn hn' hp hres
  ⟨h.1, h.2.1⟩

/-- The position of a coordinate, in steps. -/
theorem offset_bounds (hfl : RoundsAll fl) {d s : Rat} (hd : 0 ≤ d) (hs : 0 < s) :
    |fl (fl d * fl (1 / s)) - d / s| ≤ 4 / 2 ^ 53 * (d / s) := by
  have hy : 0 ≤ d / s := div_nonneg hd hs.le
  have hi : (0 : Rat) ≤ 1 / s := by positivity
  have u1 := fl_le hfl hd
  have u2 := fl_le hfl hi
  have l1 := le_fl hfl hd
  have l2 := le_fl hfl hi
  have n1 := fl_nonneg hfl hd
  have n2 := fl_nonneg hfl hi
  have up : fl d * fl (1 / s) ≤ (1 + 1 / 2 ^ 53) ^ 2 * (d / s) := by
    calc fl d * fl (1 / s) ≤ ((1 + 1 / 2 ^ 53) * d) * ((1 + 1 / 2 ^ 53) * (1 / s)) :=
          mul_le_mul u1 u2 n2 (by positivity)
      _ = _ := by ring
  have lo : (1 - 1 / 2 ^ 53) ^ 2 * (d / s) ≤ fl d * fl (1 / s) := by
    calc (1 - 1 / 2 ^ 53) ^ 2 * (d / s) = ((1 - 1 / 2 ^ 53) * d) * ((1 - 1 / 2 ^ 53) * (1 / s)) := by ring
      _ ≤ _ := mul_le_mul l1 l2 (mul_nonneg (by norm_num) hi) n1
  have u3 := fl_le hfl (mul_nonneg n1 n2)
  have l3 := le_fl hfl (mul_nonneg n1 n2)
  have u4 : fl (fl d * fl (1 / s)) ≤ (1 + 1 / 2 ^ 53) * ((1 + 1 / 2 ^ 53) ^ 2 * (d / s)) :=
    u3.trans (mul_le_mul_of_nonneg_left up (by norm_num))
  have l4 : (1 - 1 / 2 ^ 53) * ((1 - 1 / 2 ^ 53) ^ 2 * (d / s)) ≤ fl (fl d * fl (1 / s)) :=
    le_trans (mul_le_mul_of_nonneg_left lo (by norm_num)) l3
  have u5 : (1 + 1 / 2 ^ 53 : Rat) * ((1 + 1 / 2 ^ 53) ^ 2 * (d / s)) ≤ (1 + 4 / 2 ^ 53) * (d / s) := by
    rw [← mul_assoc]; exact mul_le_mul_of_nonneg_right (by norm_num) hy
  have l5 : (1 - 4 / 2 ^ 53 : Rat) * (d / s) ≤ (1 - 1 / 2 ^ 53) * ((1 - 1 / 2 ^ 53) ^ 2 * (d / s)) := by
    rw [← mul_assoc]; exact mul_le_mul_of_nonneg_right (by norm_num) hy
  rw [abs_le]
  constructor <;> linarith

/-- Uniform B-splines, whatever the rounding: a coordinate of the domain is located in a cell `c` with an
offset in `[0, 1]`, and they represent the coordinate up to a few units of the last place.  The cell exists if
the coordinate is not within a few units of the last place of the upper bound.
Missing: `c < n`; only `c ≤ n` is true (`C58_past_the_end`).  `hres`: the step is larger than the resolution of
the coordinates. -/
theorem C58_uniform_partial (hfl : RoundsAll fl) {a b : Rat} (hab : a < b) {n p : Nat} (hn : 0 < n) (hn' : n + 1 < 2 ^ 31)
    (hp : p ≤ 2 ^ 20) (hres : |a| * n ≤ 2 ^ 46 * (b - a)) {k : Knots} (hk : k = mkKnots fl a b n p) {x : Rat}
    (h1 : k.rmin fl ≤ x) (h2 : x ≤ k.rmax fl) :
    ∃ (c : Int) (o : Rat), getIcellAndOffset fl k x = .ok (c, o) ∧ 0 ≤ c ∧ c ≤ n ∧ 0 ≤ o ∧ o ≤ 1 ∧
      (x < k.rmax fl → |c + o - (x - k.rmin fl) / k.step| ≤ 1 / 2 ^ 50 * (n + 1)) ∧
      (x - k.rmin fl ≤ (1 - 1 / 2 ^ 50) * (n * k.step) → c < n) ∧ (x = k.rmax fl → c + 1 = n) := by
  obtain ⟨hs, hlen⟩ := knots_bounds hfl hab hn (by omega) hp hres
  rw [← hk] at hs hlen
  have kn : k.n = n := by rw [hk]; rfl
  have hn0 : (1 : Rat) ≤ n := by exact_mod_cast hn
  have hn1 : (n : Rat) ≤ 2 ^ 31 := by exact_mod_cast (show n ≤ 2 ^ 31 by omega)
  have hN : (1 - 1 / 8) * k.step ≤ (n : Rat) * k.step - 1 / 8 * k.step := by
    have := mul_le_mul_of_nonneg_right hn0 hs.le
    linarith
  rw [getIcellAndOffset, inside_ok hfl h1 h2, Res.ok_bind]
  by_cases c1 : x ≤ k.rmin fl
  · rw [if_pos c1]
    have e : x - k.rmin fl = 0 := by linarith
    refine ⟨0, 0, rfl, le_refl _, by omega, le_refl _, by norm_num, fun _ => ?_, fun _ => by exact_mod_cast hn, fun e' => ?_⟩
    · rw [e]; simp; positivity
    · exfalso
      have := (abs_le.1 hlen).1
      linarith
  rw [if_neg c1]
  by_cases c2 : k.rmax fl ≤ x
  · rw [if_pos c2, kn]
    exact ⟨(n : Int) - 1, 1, rfl, by omega, by omega, by norm_num, le_refl _, fun h => absurd c2 (not_le.2 h), fun _ => by omega,
      fun _ => by omega⟩
  rw [if_neg c2]
  have hd : 0 ≤ x - k.rmin fl := by linarith
  obtain ⟨y, hy⟩ : ∃ y, y = (x - k.rmin fl) / k.step := ⟨_, rfl⟩
  obtain ⟨w, hw⟩ : ∃ w, w = fl (fl (x - k.rmin fl) * k.invStep fl) := ⟨_, rfl⟩
  have hoff : |w - y| ≤ 4 / 2 ^ 53 * y := by rw [hw, hy]; exact offset_bounds hfl hd hs
  have hy0 : 0 ≤ y := by rw [hy]; exact div_nonneg hd hs.le
  have hyn : y ≤ n + 1 / 8 := by
    rw [hy, div_le_iff₀ hs]
    have := (abs_le.1 hlen).2
    linarith
  obtain ⟨o1, o2⟩ := abs_le.1 hoff
  have hw0 : 0 ≤ w := by
    have : (4 / 2 ^ 53 : Rat) * y ≤ y := by
      have := mul_le_mul_of_nonneg_right (show (4 / 2 ^ 53 : Rat) ≤ 1 by norm_num) hy0
      linarith
    linarith
  have hw1 : w < n + 1 := by linarith
  have f0 : 0 ≤ ⌊w⌋ := Int.floor_nonneg.2 hw0
  have f1 : ⌊w⌋ ≤ n := by
    have : ⌊w⌋ < (n : Int) + 1 := Int.floor_lt.2 (by push_cast; exact hw1)
    omega
  have ht : UBS.truncInt w = .ok ⌊w⌋ := by
    rw [UBS.truncInt]
    simp only [if_pos hw0]
    rw [if_pos ⟨by omega, by omega⟩]
  have fr0 := Int.floor_le w
  have fr1 := Int.lt_floor_add_one w
  obtain ⟨o, ho⟩ : ∃ o, o = fl (w - (⌊w⌋ : Rat)) := ⟨_, rfl⟩
  have ho0 : 0 ≤ o := by rw [ho]; exact fl_nonneg hfl (by linarith)
  have ho1 : o ≤ 1 := by
    rw [ho, ← fl_one hfl]
    exact hfl.mono _ _ (by linarith)
  have herr : |o - (w - (⌊w⌋ : Rat))| ≤ 1 / 2 ^ 53 := by
    rw [ho]
    refine (hfl.error _).trans ?_
    rw [abs_of_nonneg (by linarith)]
    have : w - (⌊w⌋ : Rat) ≤ 1 := by linarith
    gcongr
  have hacc : |((⌊w⌋ : Rat) + o) - y| ≤ 1 / 2 ^ 50 * (n + 1) := by
    obtain ⟨q1, q2⟩ := abs_le.1 herr
    rw [abs_le]
    constructor <;> linarith
  have hin : y ≤ (1 - 1 / 2 ^ 50) * n → ⌊w⌋ < n := by
    intro h
    rw [Int.floor_lt]
    push_cast
    linarith
  dsimp only
  rw [← hw, ht, Res.ok_bind, ← ho, kn, ← hy]
  have hy' : x - k.rmin fl ≤ (1 - 1 / 2 ^ 50) * (n * k.step) → y ≤ (1 - 1 / 2 ^ 50) * n := by
    intro h
    rw [hy, div_le_iff₀ hs]
    linarith
  by_cases c3 : ⌊w⌋ = n ∧ o = 0
  · rw [if_pos c3]
    refine ⟨(n : Int) - 1, 1, rfl, by omega, by omega, by norm_num, le_refl _, fun _ => ?_, fun _ => by omega,
      fun e => absurd e.ge c2⟩
    rw [c3.1, c3.2] at hacc
    push_cast at hacc ⊢
    rw [sub_add_cancel]
    simpa using hacc
  · rw [if_neg c3]
    exact ⟨⌊w⌋, o, rfl, f0, f1, ho0, ho1, fun _ => hacc, fun h => hin (hy' h), fun e => absurd e.ge c2⟩

/-- With the rounding of IEEE 754, the upper bound of the domain can be located past the last cell: cubic
splines on 10 cells of `[0, 3.1]`, at `x = 3.1`.  The coefficients of the B-splines 10 to 13 are read, there are
only the B-splines 0 to 12. -/
theorem C58_past_the_end : ∃ b : Rat, b = round53 (31 / 10) ∧
    (mkKnots round53 0 b 10 3).rmin round53 ≤ b ∧ b ≤ (mkKnots round53 0 b 10 3).rmax round53 ∧
    getIcellAndOffset round53 (mkKnots round53 0 b 10 3) b = .ok (10, 1 / 2 ^ 49) := by
  refine ⟨_, rfl, ?_⟩
  decide +kernel

example : ∃ c o, getIcellAndOffset round53 (mkKnots round53 0 (round53 (31 / 10)) 10 3) (round53 (3 / 2)) = .ok (c, o) ∧
    0 ≤ c ∧ c < 10 := by
  obtain ⟨c, o, e, h0, -, -, -, -, h1, -⟩ := C58_uniform_partial (a := 0) (b := round53 (31 / 10)) (n := 10) (p := 3)
    (x := round53 (3 / 2)) round53_all (by decide +kernel) (by norm_num) (by norm_num) (by norm_num) (by decide +kernel) rfl
    (by decide +kernel) (by decide +kernel)
  exact ⟨c, o, e, h0, h1 (by decide +kernel)⟩

/-! ## Periodic dimensions -/

/-- The wrapped coordinate satisfies the assertions, unless the coordinate or the domain are far away. -/
theorem wrapOf_inside (hfl : RoundsAll fl) {r R : Rat} (hr : r < R) {x : Rat}
    (hx : |x - r| ≤ 16 * fl (R - r)) (h0 : |r| ≤ 16 * fl (R - r)) :
    Rounded.checkInside fl (wrapOf fl r R x) r R = .ok () := by
  rw [wrapOf]
  by_cases c : x < r ∨ R < x
  swap
  · rw [if_neg c]
    rw [not_or, not_lt, not_lt] at c
    exact inside_ok hfl c.1 c.2
  rw [if_pos c]
  obtain ⟨L, hLe⟩ : ∃ L, L = fl (R - r) := ⟨_, rfl⟩
  rw [← hLe] at hx h0 ⊢
  have hd : 0 < R - r := sub_pos.2 hr
  have L1 := fl_le hfl hd.le
  have L2 := le_fl hfl hd.le
  rw [← hLe] at L1 L2
  have hLp : 0 < L := by
    have : 0 < (1 - 1 / 2 ^ 53) * (R - r) := mul_pos (by norm_num) hd
    linarith
  obtain ⟨d, hdd⟩ : ∃ d, d = fl (x - r) := ⟨_, rfl⟩
  have d1 := hfl.error (x - r)
  rw [← hdd] at d1 ⊢
  obtain ⟨q, hq⟩ : ∃ q, q = fl (d / L) := ⟨_, rfl⟩
  have q1 := hfl.error (d / L)
  rw [← hq] at q1 ⊢
  obtain ⟨m, hm⟩ : ∃ m, m = ⌊q⌋ := ⟨_, rfl⟩
  have m1 := Int.floor_le q
  have m2 := Int.lt_floor_add_one q
  rw [← hm] at m1 m2 ⊢
  have hdabs : |d| ≤ 17 * L := by
    have h1 : |d| ≤ |d - (x - r)| + |x - r| := by
      have := abs_add_le (d - (x - r)) (x - r)
      rwa [sub_add_cancel] at this
    linarith
  have qL : |q * L - d| ≤ 1 / 2 ^ 53 * |d| := by
    have h1 : q * L - d = (q - d / L) * L := by field_simp
    have h2 : |d / L| * L = |d| := by rw [abs_div, abs_of_pos hLp]; field_simp
    rw [h1, abs_mul, abs_of_pos hLp]
    calc |q - d / L| * L ≤ |d / L| / 2 ^ 53 * L := mul_le_mul_of_nonneg_right q1 hLp.le
      _ = 1 / 2 ^ 53 * |d| := by rw [← h2]; ring
  obtain ⟨M, hM⟩ : ∃ M, M = (m : Rat) * L := ⟨_, rfl⟩
  have M1 : M ≤ q * L := by rw [hM]; exact mul_le_mul_of_nonneg_right m1 hLp.le
  have M2 : q * L ≤ M + L := by
    have := mul_le_mul_of_nonneg_right m2.le hLp.le
    rw [hM]; linarith
  obtain ⟨g1, g2⟩ := abs_le.1 qL
  obtain ⟨g3, g4⟩ := abs_le.1 d1
  obtain ⟨g5, g6⟩ := abs_le.1 hdabs
  have Mabs : |M| ≤ 19 * L := abs_le.2 ⟨by linarith, by linarith⟩
  have e1 := hfl.error M
  rw [← hM]
  obtain ⟨F, hF⟩ : ∃ F, F = fl M := ⟨_, rfl⟩
  rw [← hF] at e1 ⊢
  obtain ⟨g7, g8⟩ := abs_le.1 e1
  obtain ⟨g9, g10⟩ := abs_le.1 h0
  have zabs : |x - F| ≤ 18 * L := abs_le.2 ⟨by linarith, by linarith⟩
  have e2 := hfl.error (x - F)
  obtain ⟨W, hW⟩ : ∃ W, W = fl (x - F) := ⟨_, rfl⟩
  rw [← hW] at e2 ⊢
  obtain ⟨g11, g12⟩ := abs_le.1 e2
  have htol := le_fl hfl (q := 1 / 10 ^ 14) (by norm_num)
  have hLt : 80 / 2 ^ 53 * L ≤ L * fl (1 / 10 ^ 14) := by
    rw [mul_comm]
    refine mul_le_mul_of_nonneg_left (le_trans ?_ htol) hLp.le
    norm_num
  rw [Rounded.checkInside, ← hLe]
  have c1 : decide (fl (-L * fl (1 / 10 ^ 14)) ≤ fl (W - r)) = true := by
    simp only [decide_eq_true_eq]
    refine hfl.mono _ _ ?_
    linarith
  have c2 : decide (fl (-L * fl (1 / 10 ^ 14)) ≤ fl (R - W)) = true := by
    simp only [decide_eq_true_eq]
    refine hfl.mono _ _ ?_
    linarith
  rw [c1, c2]
  rfl

theorem wrap_inside (hfl : RoundsAll fl) {k : Knots} (hr : k.rmin fl < k.rmax fl) {x : Rat}
    (hx : |x - k.rmin fl| ≤ 16 * k.length fl) (h0 : |k.rmin fl| ≤ 16 * k.length fl) :
    Rounded.checkInside fl (wrap fl k x) (k.rmin fl) (k.rmax fl) = .ok () := wrapOf_inside hfl hr hx h0

/-- A periodic evaluator, whatever the rounding: the wrapped coordinate is located in a cell `c ≤ n`, if it is
within 16 periods of the domain and the domain within 16 periods of the origin.
Missing: `c < n` (`C58_past_the_end`), coordinates that are farther (`C58_far_aborts`). -/
theorem C58_periodic_partial (hfl : RoundsAll fl) {a b : Rat} (hab : a < b) {n p : Nat} (hn : 0 < n) (hn' : n + 1 < 2 ^ 31)
    (hp : p ≤ 2 ^ 20) (hres : |a| * n ≤ 2 ^ 46 * (b - a)) {k : Knots} (hk : k = mkKnots fl a b n p) {x : Rat}
    (hx : |x - k.rmin fl| ≤ 16 * k.length fl) (h0 : |k.rmin fl| ≤ 16 * k.length fl) :
    ∃ (c : Int) (o : Rat), getIcellAndOffset fl k (wrap fl k x) = .ok (c, o) ∧ 0 ≤ c ∧ c ≤ n ∧ 0 ≤ o ∧ o ≤ 1 := by
  obtain ⟨hs, hlen⟩ := knots_bounds hfl hab hn (by omega) hp hres
  rw [← hk] at hs hlen
  have kn : k.n = n := by rw [hk]; rfl
  have hn0 : (1 : Rat) ≤ n := by exact_mod_cast hn
  have hr : k.rmin fl < k.rmax fl := by
    have h1 := (abs_le.1 hlen).1
    have h2 := mul_le_mul_of_nonneg_right hn0 hs.le
    linarith
  have hin := wrap_inside hfl hr hx h0
  by_cases c1 : wrap fl k x ≤ k.rmin fl
  · rw [getIcellAndOffset, hin, Res.ok_bind, if_pos c1]
    exact ⟨0, 0, rfl, le_refl _, by omega, le_refl _, by norm_num⟩
  · by_cases c2 : k.rmax fl ≤ wrap fl k x
    · rw [getIcellAndOffset, hin, Res.ok_bind, if_neg c1, if_pos c2, kn]
      exact ⟨(n : Int) - 1, 1, rfl, by omega, by omega, by norm_num, le_refl _⟩
    · obtain ⟨c, o, e, h1, h2, h3, h4, -⟩ := C58_uniform_partial hfl hab hn hn' hp hres hk (not_le.1 c1).le (not_le.1 c2).le
      exact ⟨c, o, e, h1, h2, h3, h4⟩

/-- The assertion fails for a coordinate at 100 periods: 20 cells of `[-2, 2.7]`, at `x = 472.7`. -/
theorem C58_far_aborts : getIcellAndOffset round53 (mkKnots round53 (-2) (round53 (27 / 10)) 20 3)
    (wrap round53 (mkKnots round53 (-2) (round53 (27 / 10)) 20 3) (round53 (4727 / 10))) = .abort := by
  decide +kernel

example : ∃ c o, getIcellAndOffset round53 (mkKnots round53 (-2) (round53 (27 / 10)) 20 3)
    (wrap round53 (mkKnots round53 (-2) (round53 (27 / 10)) 20 3) (round53 (477 / 10))) = .ok (c, o) := by
  obtain ⟨c, o, e, -⟩ := C58_periodic_partial (a := -2) (b := round53 (27 / 10)) (n := 20) (p := 3)
    (x := round53 (477 / 10)) round53_all (by decide +kernel) (by norm_num) (by norm_num) (by norm_num) (by decide +kernel) rfl
    (by decide +kernel) (by decide +kernel)
  exact ⟨c, o, e⟩

/-! ## Non-uniform B-splines -/

/-- Non-uniform B-splines, whatever the rounding: the cell contains the coordinate (the statement of
`C34_non_uniform`).  The search only compares. -/
theorem C58_non_uniform (hfl : RoundsAll fl) (p : Nat) (hp : 0 < p) (per : Bool) (breaks : List Rat) (hl : 2 ≤ breaks.length)
    (hb : Increasing breaks) (hs : breaks.length + 2 * p < 2 ^ 63)
    (hlt : breaks[0] < breaks[breaks.length - 1]) (u : NUBS Rat) (hu : NUBS.mk' p per breaks = .ok u)
    (x : Rat) (h1 : breaks[0] ≤ x) (h2 : x ≤ breaks[breaks.length - 1]) :
    ∃ (i : Nat) (hi : i + 1 < breaks.length),
      Rounded.findCellStart fl u x = .ok (el1 (BitVec.ofNat 64 (p + i))) ∧
      (x = breaks[0] → i = 0) ∧ (x = breaks[breaks.length - 1] → i = breaks.length - 2) ∧
      (breaks[0] < x → x < breaks[breaks.length - 1] → breaks[i] ≤ x ∧ x < breaks[i + 1]) := by
  obtain ⟨i, hi, e, h3⟩ := C34_non_uniform p hp per breaks hl hb hs hlt u hu x h1 h2
  refine ⟨i, hi, ?_, h3⟩
  rw [← e]
  obtain ⟨u', t, e', -, hu', hk⟩ := NUBS.mk'_is hp per hl hs hb hlt
  rw [hu] at e'
  obtain rfl := Res.ok.inj e'
  have ea : t p = breaks[0] := by
    have := hk.inner 0 (by omega)
    rwa [Nat.add_zero] at this
  have eb : t (p + (breaks.length - 1)) = breaks[breaks.length - 1] := hk.inner _ (by omega)
  rw [Rounded.findCellStart, NUBS.findCellStart, hu'.rmin, hu'.rmax]
  simp only [Res.ok_bind]
  rw [inside_ok hfl (by rw [ea]; exact h1) (by rw [eb]; exact h2),
    checkInside_ok (by rw [ea, eb]; exact hlt) (by rw [ea, eb]; exact ⟨h1, h2⟩)]

example :
    (NUBS.mk' 3 false [(0 : Rat), 1, 3, 4, 6, 6, 7] >>= fun u => Rounded.findCellStart round53 u 6) = .ok (el1 8) := by
  decide +kernel

end DDC.Props
