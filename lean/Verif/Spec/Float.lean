import Mathlib.Algebra.Order.Round
import Mathlib.Data.Rat.Floor
import Mathlib.Data.Int.Log
import Mathlib.Tactic.LinearCombination
import Mathlib.Tactic.Positivity
import Mathlib.Tactic.GCongr
import Mathlib.Tactic.Linarith

/-!
# Rounding of `double`

What is assumed of a floating-point operation, and the rounding of IEEE 754 with 53 significant bits as an
instance.
-/

namespace DDC.Spec

/-- Rounding of the exact result of an operation to a `double`: integers of at most 53 bits are exact and the
relative error is at most `2⁻⁵³`, away from overflow and underflow. -/
structure Rounds (fl : Rat → Rat) : Prop where
  exact : ∀ m : Int, |m| ≤ 2 ^ 53 → fl m = m
  error : ∀ q : Rat, 1 / 2 ^ 64 ≤ |q| → |q| ≤ 2 ^ 64 → |fl q - q| ≤ |q| / 2 ^ 53

/-- The same with an unbounded exponent, and the rounding is monotone. -/
structure RoundsAll (fl : Rat → Rat) : Prop where
  exact : ∀ m : Int, |m| ≤ 2 ^ 53 → fl m = m
  error : ∀ q : Rat, |fl q - q| ≤ |q| / 2 ^ 53
  mono : ∀ q r : Rat, q ≤ r → fl q ≤ fl r

theorem RoundsAll.rounds {fl : Rat → Rat} (h : RoundsAll fl) : Rounds fl := ⟨h.exact, fun q _ _ => h.error q⟩

/-- The nearest integer; the even one of two. -/
def roundEven (q : Rat) : Int :=
  if q - ⌊q⌋ < 1 / 2 then ⌊q⌋ else if 1 / 2 < q - ⌊q⌋ then ⌊q⌋ + 1 else if ⌊q⌋ % 2 = 0 then ⌊q⌋ else ⌊q⌋ + 1

theorem roundEven_error (q : Rat) : |q - roundEven q| ≤ 1 / 2 := by
  have h1 := Int.floor_le q
  have h2 := Int.lt_floor_add_one q
  rw [roundEven]
  split_ifs <;> rw [abs_le] <;> constructor <;> push_cast <;> linarith

theorem roundEven_int (m : Int) : roundEven m = m := by
  rw [roundEven, Int.floor_intCast, if_pos (by norm_num)]

theorem roundEven_mono {q r : Rat} (h : q ≤ r) : roundEven q ≤ roundEven r := by
  have hf := Int.floor_le_floor h
  have hb : ∀ z : Rat, ⌊z⌋ ≤ roundEven z ∧ roundEven z ≤ ⌊z⌋ + 1 := by
    intro z; rw [roundEven]; split_ifs <;> omega
  rcases lt_or_eq_of_le hf with hl | he
  · have := (hb q).2
    have := (hb r).1
    omega
  · rw [roundEven, roundEven, ← he]
    split_ifs <;> first | omega | (exfalso; linarith)

/-- Rounding to 53 significant bits, to the nearest, ties to even; the exponent is not bounded. -/
def round53 (q : Rat) : Rat :=
  if q = 0 then 0 else (roundEven (q * 2 ^ (52 - Int.log 2 |q|)) : Rat) * 2 ^ (Int.log 2 |q| - 52)

theorem round53_error (q : Rat) : |round53 q - q| ≤ |q| / 2 ^ 53 := by
  by_cases hq : q = 0
  · simp [round53, hq]
  rw [round53, if_neg hq]
  obtain ⟨e, he⟩ : ∃ e, e = Int.log 2 |q| := ⟨_, rfl⟩
  rw [← he]
  have h1 : (2 : Rat) ^ e ≤ |q| := by rw [he]; exact_mod_cast Int.zpow_log_le_self (by norm_num) (abs_pos.2 hq)
  have h2 := roundEven_error (q * (2 : Rat) ^ (52 - e))
  have h3 : (roundEven (q * (2 : Rat) ^ (52 - e)) : Rat) * 2 ^ (e - 52) - q =
      -((q * 2 ^ (52 - e) - roundEven (q * (2 : Rat) ^ (52 - e))) * 2 ^ (e - 52)) := by
    have : (2 : Rat) ^ (52 - e) * 2 ^ (e - 52) = 1 := by
      rw [← zpow_add₀ (by norm_num)]; simp
    linear_combination q * this
  have hz : (0 : Rat) < 2 ^ (e - 52) := zpow_pos (by norm_num) _
  rw [h3, abs_neg, abs_mul, abs_of_pos hz]
  have h4 : (2 : Rat) ^ (e - 52) = 2 ^ e / 2 ^ 52 := by
    rw [zpow_sub₀ (by norm_num)]; rfl
  calc |q * (2 : Rat) ^ (52 - e) - roundEven (q * (2 : Rat) ^ (52 - e))| * 2 ^ (e - 52) ≤ 1 / 2 * 2 ^ (e - 52) :=
        mul_le_mul_of_nonneg_right h2 hz.le
    _ = 2 ^ e / 2 ^ 53 := by rw [h4]; ring
    _ ≤ |q| / 2 ^ 53 := by gcongr

theorem round53_int (m : Int) (hm : |m| ≤ 2 ^ 53) : round53 m = m := by
  by_cases h0 : m = 0
  · subst h0; simp [round53]
  have hq : (m : Rat) ≠ 0 := by exact_mod_cast h0
  rw [round53, if_neg hq]
  obtain ⟨e, he⟩ : ∃ e, e = Int.log 2 |(m : Rat)| := ⟨_, rfl⟩
  rw [← he]
  have hval : ∃ k : Int, (m : Rat) * 2 ^ (52 - e) = k := by
    by_cases h52 : e ≤ 52
    · obtain ⟨d, hd⟩ := Int.eq_ofNat_of_zero_le (show 0 ≤ 52 - e by omega)
      refine ⟨m * 2 ^ d, ?_⟩
      rw [hd]; push_cast; rfl
    · have h1 : (2 : Rat) ^ e ≤ |(m : Rat)| := by
        rw [he]; exact_mod_cast Int.zpow_log_le_self (by norm_num) (abs_pos.2 hq)
      have h2 : |(m : Rat)| ≤ 2 ^ (53 : Int) := by
        have : ((|m| : Int) : Rat) ≤ ((2 ^ 53 : Int) : Rat) := Int.cast_le.2 hm
        rw [Int.cast_abs] at this
        exact this.trans (by norm_num)
      have h3 : (2 : Rat) ^ (53 : Int) ≤ 2 ^ e := by
        apply zpow_le_zpow_right₀ (by norm_num); omega
      have h4 : |(m : Rat)| = 2 ^ (53 : Int) := le_antisymm h2 (h3.trans h1)
      have h5 : e = 53 := by
        have : (2 : Rat) ^ e ≤ 2 ^ (53 : Int) := h1.trans h2
        have := (zpow_le_zpow_iff_right₀ (show (1 : Rat) < 2 by norm_num)).1 this
        omega
      rw [h5]
      rcases abs_choice (m : Rat) with h | h <;> rw [h] at h4
      · exact ⟨2 ^ 52, by rw [h4]; norm_num⟩
      · exact ⟨-2 ^ 52, by rw [← neg_neg (m : Rat), h4]; norm_num⟩
  obtain ⟨k, hk⟩ := hval
  rw [hk, roundEven_int, ← hk, mul_assoc, ← zpow_add₀ (by norm_num)]
  simp

/-- Where the rounded number is, with respect to the powers of two around the number. -/
theorem round53_bounds (q : Rat) (hq : q ≠ 0) :
    (0 < q → 2 ^ Int.log 2 |q| ≤ round53 q ∧ round53 q ≤ 2 ^ (Int.log 2 |q| + 1)) ∧
      (q < 0 → -2 ^ (Int.log 2 |q| + 1) ≤ round53 q ∧ round53 q ≤ -2 ^ Int.log 2 |q|) := by
  rw [round53, if_neg hq]
  obtain ⟨e, he⟩ : ∃ e, e = Int.log 2 |q| := ⟨_, rfl⟩
  rw [← he]
  have h1 : (2 : Rat) ^ e ≤ |q| := by rw [he]; exact_mod_cast Int.zpow_log_le_self (by norm_num) (abs_pos.2 hq)
  have h2 : |q| ≤ (2 : Rat) ^ (e + 1) := by
    rw [he]; exact_mod_cast (Int.lt_zpow_succ_log_self (b := 2) (by norm_num) |q|).le
  have hz : (0 : Rat) < 2 ^ (52 - e) := zpow_pos (by norm_num) _
  have hz' : (0 : Rat) < 2 ^ (e - 52) := zpow_pos (by norm_num) _
  have e1 : (2 : Rat) ^ e * 2 ^ (52 - e) = ((2 ^ 52 : Int) : Rat) := by
    rw [← zpow_add₀ (by norm_num)]; norm_num
  have e2 : (2 : Rat) ^ (e + 1) * 2 ^ (52 - e) = ((2 ^ 53 : Int) : Rat) := by
    rw [← zpow_add₀ (by norm_num), show e + 1 + (52 - e) = 53 by ring]; norm_num
  have e3 : ((2 ^ 52 : Int) : Rat) * 2 ^ (e - 52) = 2 ^ e := by
    rw [← e1, mul_assoc, ← zpow_add₀ (by norm_num)]; simp
  have e4 : ((2 ^ 53 : Int) : Rat) * 2 ^ (e - 52) = 2 ^ (e + 1) := by
    rw [← e2, mul_assoc, ← zpow_add₀ (by norm_num)]; simp
  have key : ∀ (z : Rat) (m : Int), z ≤ m → roundEven z ≤ m := fun z m h => by
    have := roundEven_mono h
    rwa [roundEven_int] at this
  have key' : ∀ (z : Rat) (m : Int), m ≤ z → m ≤ roundEven z := fun z m h => by
    have := roundEven_mono h
    rwa [roundEven_int] at this
  have cast : ∀ m k : Int, m ≤ k → (m : Rat) * 2 ^ (e - 52) ≤ (k : Rat) * 2 ^ (e - 52) := fun m k h =>
    mul_le_mul_of_nonneg_right (Int.cast_le.2 h) hz'.le
  constructor
  · intro h
    rw [abs_of_pos h] at h1 h2
    constructor
    · rw [← e3]
      exact cast _ _ (key' _ _ (by rw [← e1]; exact mul_le_mul_of_nonneg_right h1 hz.le))
    · rw [← e4]
      exact cast _ _ (key _ _ (by rw [← e2]; exact mul_le_mul_of_nonneg_right h2 hz.le))
  · intro h
    rw [abs_of_neg h] at h1 h2
    constructor
    · rw [← e4, ← neg_mul, ← Int.cast_neg]
      refine cast _ _ (key' _ _ ?_)
      rw [Int.cast_neg, ← e2, ← neg_mul]
      exact mul_le_mul_of_nonneg_right (by linarith) hz.le
    · rw [← e3, ← neg_mul, ← Int.cast_neg]
      refine cast _ _ (key _ _ ?_)
      rw [Int.cast_neg, ← e1, ← neg_mul]
      exact mul_le_mul_of_nonneg_right (by linarith) hz.le

theorem round53_mono {q r : Rat} (h : q ≤ r) : round53 q ≤ round53 r := by
  have hpow : ∀ e : Int, (0 : Rat) < 2 ^ e := fun e => zpow_pos (by norm_num) _
  have hsame : q ≠ 0 → r ≠ 0 → Int.log 2 |q| = Int.log 2 |r| → round53 q ≤ round53 r := by
    intro hq hr he
    rw [round53, round53, if_neg hq, if_neg hr, ← he]
    refine mul_le_mul_of_nonneg_right (Int.cast_le.2 (roundEven_mono ?_)) (hpow _).le
    exact mul_le_mul_of_nonneg_right h (hpow _).le
  rcases lt_trichotomy q 0 with hq | hq | hq
  · rcases lt_trichotomy r 0 with hr | hr | hr
    · rcases lt_trichotomy (Int.log 2 |q|) (Int.log 2 |r|) with he | he | he
      · exfalso
        have : Int.log 2 |r| ≤ Int.log 2 |q| := Int.log_mono_right (abs_pos.2 hr.ne) (by
          rw [abs_of_neg hq, abs_of_neg hr]; linarith)
        omega
      · exact hsame hq.ne hr.ne he
      · have h1 := ((round53_bounds q hq.ne).2 hq).2
        have h2 := ((round53_bounds r hr.ne).2 hr).1
        have h3 : (2 : Rat) ^ (Int.log 2 |r| + 1) ≤ 2 ^ Int.log 2 |q| :=
          zpow_le_zpow_right₀ (by norm_num) (by omega)
        linarith
    · have h1 := ((round53_bounds q hq.ne).2 hq).2
      have := hpow (Int.log 2 |q|)
      rw [hr, round53, round53, if_pos rfl, ← round53]
      linarith
    · have h1 := ((round53_bounds q hq.ne).2 hq).2
      have h2 := ((round53_bounds r hr.ne').1 hr).1
      have := hpow (Int.log 2 |q|)
      have := hpow (Int.log 2 |r|)
      linarith
  · rcases lt_or_eq_of_le (show 0 ≤ r by linarith) with hr | hr
    · have h2 := ((round53_bounds r hr.ne').1 hr).1
      have := hpow (Int.log 2 |r|)
      have h0 : round53 q = 0 := by rw [round53, if_pos hq]
      linarith
    · rw [hq, ← hr]
  · have hr : 0 < r := by linarith
    rcases lt_trichotomy (Int.log 2 |q|) (Int.log 2 |r|) with he | he | he
    · have h1 := ((round53_bounds q hq.ne').1 hq).2
      have h2 := ((round53_bounds r hr.ne').1 hr).1
      have h3 : (2 : Rat) ^ (Int.log 2 |q| + 1) ≤ 2 ^ Int.log 2 |r| :=
        zpow_le_zpow_right₀ (by norm_num) (by omega)
      linarith
    · exact hsame hq.ne' hr.ne' he
    · exfalso
      have : Int.log 2 |q| ≤ Int.log 2 |r| := Int.log_mono_right (abs_pos.2 hq.ne') (by
        rw [abs_of_pos hq, abs_of_pos hr]; exact h)
      omega

theorem round53_all : RoundsAll round53 := ⟨round53_int, round53_error, fun _ _ => round53_mono⟩

theorem round53_rounds : Rounds round53 := round53_all.rounds

/-- Rounding to the nearest `double`. -/
structure RoundsNearest (fl : Rat → Rat) : Prop extends RoundsAll fl where
  nearest : ∀ q v : Rat, |fl q - q| ≤ |fl v - q|

theorem RoundsNearest.idem {fl : Rat → Rat} (h : RoundsNearest fl) (q : Rat) : fl (fl q) = fl q := by
  have := h.nearest (fl q) q
  rw [sub_self, abs_zero] at this
  exact sub_eq_zero.1 (abs_eq_zero.1 (le_antisymm this (abs_nonneg _)))

/-- No integer is nearer. -/
theorem roundEven_nearest (q : Rat) (m : Int) : |(roundEven q : Rat) - q| ≤ |(m : Rat) - q| := by
  by_cases h : m = roundEven q
  · rw [h]
  have h1 := roundEven_error q
  have h2 : (1 : Rat) ≤ |(m : Rat) - roundEven q| := by
    have : 1 ≤ |m - roundEven q| := Int.one_le_abs (sub_ne_zero.2 h)
    have h3 : ((1 : Int) : Rat) ≤ ((|m - roundEven q| : Int) : Rat) := Int.cast_le.2 this
    rw [Int.cast_abs, Int.cast_sub, Int.cast_one] at h3
    exact h3
  have h3 := abs_sub_le (m : Rat) q (roundEven q)
  rw [abs_sub_comm] at h1
  rw [abs_sub_comm q] at h3
  linarith

/-- A rounded number has 53 significant bits. -/
theorem round53_form (v : Rat) : ∃ (m k : Int), |m| ≤ 2 ^ 53 ∧ round53 v = (m : Rat) * 2 ^ k := by
  by_cases hv : v = 0
  · exact ⟨0, 0, by norm_num, by simp [round53, hv]⟩
  refine ⟨_, _, ?_, by rw [round53, if_neg hv]⟩
  obtain ⟨e, he⟩ : ∃ e, e = Int.log 2 |v| := ⟨_, rfl⟩
  rw [← he]
  have h2 : |v| ≤ (2 : Rat) ^ (e + 1) := by
    rw [he]; exact_mod_cast (Int.lt_zpow_succ_log_self (b := 2) (by norm_num) |v|).le
  have hz : (0 : Rat) < 2 ^ (52 - e) := zpow_pos (by norm_num) _
  have e2 : (2 : Rat) ^ (e + 1) * 2 ^ (52 - e) = ((2 ^ 53 : Int) : Rat) := by
    rw [← zpow_add₀ (by norm_num), show e + 1 + (52 - e) = 53 by ring]; norm_num
  obtain ⟨h3, h4⟩ := abs_le.1 h2
  rw [abs_le]
  constructor
  · have : ((-2 ^ 53 : Int) : Rat) ≤ v * 2 ^ (52 - e) := by
      rw [Int.cast_neg, ← e2, ← neg_mul]
      exact mul_le_mul_of_nonneg_right h3 hz.le
    have := roundEven_mono this
    rwa [roundEven_int] at this
  · have : v * 2 ^ (52 - e) ≤ ((2 ^ 53 : Int) : Rat) := by
      rw [← e2]
      exact mul_le_mul_of_nonneg_right h4 hz.le
    have := roundEven_mono this
    rwa [roundEven_int] at this

theorem round53_near (q v : Rat) : |round53 q - q| ≤ |round53 v - q| := by
  by_cases hq : q = 0
  · rw [hq, show round53 0 = 0 by simp [round53]]; simp
  obtain ⟨m, k, hm, e⟩ := round53_form v
  rw [e]
  have hb := round53_bounds q hq
  have hr : round53 q = (roundEven (q * 2 ^ (52 - Int.log 2 |q|)) : Rat) * 2 ^ (Int.log 2 |q| - 52) := by
    rw [round53, if_neg hq]
  obtain ⟨l, hl⟩ : ∃ l, l = Int.log 2 |q| := ⟨_, rfl⟩
  rw [← hl] at hr hb
  have h1 : (2 : Rat) ^ l ≤ |q| := by rw [hl]; exact_mod_cast Int.zpow_log_le_self (by norm_num) (abs_pos.2 hq)
  have hz : (0 : Rat) < 2 ^ (l - 52) := zpow_pos (by norm_num) _
  have hgrid : ∀ g : Int, |round53 q - q| ≤ |(g : Rat) * 2 ^ (l - 52) - q| := by
    intro g
    have hone : (2 : Rat) ^ (52 - l) * 2 ^ (l - 52) = 1 := by
      rw [← zpow_add₀ (by norm_num)]; simp
    have e1 : ∀ z : Rat, z * 2 ^ (l - 52) - q = (z - q * 2 ^ (52 - l)) * 2 ^ (l - 52) := fun z => by
      linear_combination q * hone
    rw [hr, e1, e1, abs_mul, abs_mul]
    exact mul_le_mul_of_nonneg_right (roundEven_nearest _ _) (abs_nonneg _)
  by_cases hk : l - 52 ≤ k
  · obtain ⟨d, hd⟩ := Int.eq_ofNat_of_zero_le (show 0 ≤ k - (l - 52) by omega)
    have := hgrid (m * 2 ^ d)
    rwa [show ((m * 2 ^ d : Int) : Rat) * 2 ^ (l - 52) = (m : Rat) * 2 ^ k by
      rw [show k = (d : Int) + (l - 52) by omega, zpow_add₀ (by norm_num), zpow_natCast]; push_cast; ring] at this
  · have hw : |(m : Rat) * 2 ^ k| ≤ 2 ^ l := by
      have hm' : |(m : Rat)| ≤ 2 ^ (53 : Int) := by
        have : ((|m| : Int) : Rat) ≤ ((2 ^ 53 : Int) : Rat) := Int.cast_le.2 hm
        rw [Int.cast_abs] at this
        exact this.trans (by norm_num)
      have hk' : (0 : Rat) < 2 ^ k := zpow_pos (by norm_num) _
      rw [abs_mul, abs_of_pos hk']
      calc |(m : Rat)| * 2 ^ k ≤ 2 ^ (53 : Int) * 2 ^ k := mul_le_mul_of_nonneg_right hm' hk'.le
        _ = 2 ^ (53 + k) := by rw [← zpow_add₀ (by norm_num)]
        _ ≤ 2 ^ l := zpow_le_zpow_right₀ (by norm_num) (by omega)
    have e3 : ((2 ^ 52 : Int) : Rat) * 2 ^ (l - 52) = 2 ^ l := by
      have : ((2 ^ 52 : Int) : Rat) = 2 ^ (52 : Int) := by norm_num
      rw [this, ← zpow_add₀ (by norm_num)]; simp
    obtain ⟨w1, w2⟩ := abs_le.1 hw
    rcases lt_or_gt_of_ne hq with hn | hp
    · have := hgrid (-2 ^ 52)
      rw [Int.cast_neg, neg_mul, e3] at this
      rw [abs_of_neg hn] at h1
      refine this.trans ?_
      rw [abs_of_nonneg (show 0 ≤ -2 ^ l - q by linarith)]
      exact le_trans (by linarith) (le_abs_self _)
    · have := hgrid (2 ^ 52)
      rw [e3] at this
      rw [abs_of_pos hp] at h1
      refine this.trans ?_
      rw [abs_sub_comm, abs_of_nonneg (show 0 ≤ q - 2 ^ l by linarith), abs_sub_comm]
      exact le_trans (by linarith) (le_abs_self _)

theorem round53_nearest : RoundsNearest round53 := ⟨round53_all, round53_near⟩

end DDC.Spec
