import Verif.Lemmas.RoundedNear
import Mathlib.Analysis.SpecialFunctions.Sqrt

/-!
# Relative errors after a number of operations, for real numbers

`NearR m x y` says that `x` is what `m` operations with rounding may make of the real number `y`.
-/

namespace DDC

/-- The growth of a value in `m` operations with rounding. -/
noncomputable def upR (m : Nat) : ℝ := (1 + 1 / 2 ^ 53) ^ m

theorem one_le_upR (m : Nat) : 1 ≤ upR m := one_le_pow₀ (by norm_num)

theorem upR_add (m n : Nat) : upR (m + n) = upR m * upR n := pow_add _ _ _

theorem upR_mono {m n : Nat} (h : m ≤ n) : upR m ≤ upR n := pow_le_pow_right₀ (by norm_num) h

theorem upR_cast (m : Nat) : ((up m : Rat) : ℝ) = upR m := by
  rw [up, upR]
  push_cast
  rfl

theorem upR_le (m : Nat) (hm : m ≤ 2 ^ 40) : upR m ≤ 1 + 17 / 16 * m / 2 ^ 53 := by
  have h := up_le m hm
  have : ((up m : Rat) : ℝ) ≤ ((1 + 17 / 16 * m / 2 ^ 53 : Rat) : ℝ) := by exact_mod_cast h
  rw [upR_cast] at this
  push_cast at this
  exact this

theorem upR_small (m : Nat) (hm : m ≤ 2 ^ 40) : upR m ≤ 9 / 8 := by
  have : ((up m : Rat) : ℝ) ≤ ((9 / 8 : Rat) : ℝ) := by exact_mod_cast up_small m hm
  rw [upR_cast] at this
  push_cast at this
  exact this

theorem le_upR (m : Nat) : 1 + (m : ℝ) / 2 ^ 53 ≤ upR m := by
  have := one_add_mul_le_pow (a := (1 / 2 ^ 53 : ℝ)) (by norm_num) m
  rw [upR]
  calc 1 + (m : ℝ) / 2 ^ 53 = 1 + m * (1 / 2 ^ 53) := by ring
    _ ≤ _ := this

/-- `x` is `y` up to `m` operations with rounding. -/
def NearR (m : Nat) (x y : ℝ) : Prop := |x - y| ≤ (upR m - 1) * |y|

namespace NearR

variable {m n : Nat} {x y z w : ℝ}

theorem refl (x : ℝ) : NearR 0 x x := by simp [NearR, upR]

theorem mono (h : NearR m x y) (hmn : m ≤ n) : NearR n x y :=
  le_trans h (mul_le_mul_of_nonneg_right (by linarith [upR_mono hmn]) (abs_nonneg _))

theorem of_rel (h : |x - y| ≤ m / 2 ^ 53 * |y|) : NearR m x y :=
  le_trans h (mul_le_mul_of_nonneg_right (by linarith [le_upR m]) (abs_nonneg _))

theorem abs_le (h : NearR m x y) : |x| ≤ upR m * |y| := by
  have h1 := abs_sub_abs_le_abs_sub x y
  rw [NearR] at h
  linarith

theorem trans (h : NearR m x y) (h' : NearR n y z) : NearR (m + n) x z := by
  have a := h'.abs_le
  have k := abs_sub_le x y z
  have m1 := mul_le_mul_of_nonneg_left a (show 0 ≤ upR m - 1 by linarith [one_le_upR m])
  rw [NearR] at h h' ⊢
  rw [upR_add]
  calc |x - z| ≤ (upR m - 1) * (upR n * |z|) + (upR n - 1) * |z| := by linarith
    _ = _ := by ring

theorem mul (h : NearR m x y) (h' : NearR n z w) : NearR (m + n) (x * z) (y * w) := by
  have a := h'.abs_le
  have e : x * z - y * w = (x - y) * z + y * (z - w) := by ring
  rw [NearR, e, upR_add, abs_mul]
  refine (abs_add_le _ _).trans ?_
  rw [abs_mul, abs_mul]
  have m0 : 0 ≤ (upR m - 1) * |y| := mul_nonneg (by linarith [one_le_upR m]) (abs_nonneg _)
  have k1 := mul_le_mul h a (abs_nonneg _) m0
  have k2 := mul_le_mul_of_nonneg_left h' (abs_nonneg y)
  calc |x - y| * |z| + |y| * |z - w| ≤ (upR m - 1) * |y| * (upR n * |w|) + |y| * ((upR n - 1) * |w|) := add_le_add k1 k2
    _ = _ := by ring

theorem fl {fl : Rat → Rat} (hfl : Spec.RoundsAll fl) {q : Rat} (h : NearR m q y) : NearR (m + 1) (fl q : Rat) y := by
  have k : |((fl q : Rat) : ℝ) - q| ≤ |(q : ℝ)| / 2 ^ 53 := by exact_mod_cast hfl.error q
  have : NearR 1 ((fl q : Rat) : ℝ) q := of_rel (by rw [Nat.cast_one]; linarith)
  rw [add_comm]
  exact this.trans h

theorem pos (h : NearR m x y) (hm : m ≤ 2 ^ 40) (hy : 0 < y) : 0 < x := by
  have k := (_root_.abs_le.1 h).1
  rw [abs_of_pos hy] at k
  have := mul_le_mul_of_nonneg_right (upR_small m hm) hy.le
  linarith

theorem inv (h : NearR m x y) (hm : m ≤ 2 ^ 40) (hy : 0 < y) : NearR (2 * m) (1 / x) (1 / y) := by
  have hx := h.pos hm hy
  have k := _root_.abs_le.1 h
  have t1 := one_le_upR m
  have t2 := upR_small m hm
  rw [abs_of_pos hy] at k
  have hy' : 0 < 1 / y := by positivity
  rw [NearR, abs_of_pos hy', two_mul, upR_add]
  generalize upR m = t at *
  have e : 1 / x - 1 / y = (y - x) / (x * y) := by field_simp
  rw [e, abs_div, abs_of_pos (show 0 < x * y by positivity), div_le_iff₀ (by positivity)]
  have e' : (t * t - 1) * (1 / y) * (x * y) = (t * t - 1) * x := by field_simp
  rw [e', abs_sub_comm]
  refine (_root_.abs_le.2 k).trans ?_
  have c : (t - 1) * y ≤ (t - 1) * ((t + 1) * x) := by
    refine mul_le_mul_of_nonneg_left ?_ (by linarith)
    have := mul_le_mul_of_nonneg_left (show (2 - t) * y ≤ x by linarith) (show 0 ≤ t + 1 by linarith)
    have h3 : 1 ≤ (t + 1) * (2 - t) := by nlinarith
    have := mul_le_mul_of_nonneg_right h3 hy.le
    linarith
  linarith

theorem div (h : NearR m x y) (h' : NearR n z w) (hn : n ≤ 2 ^ 40) (hw : 0 < w) : NearR (m + 2 * n) (x / z) (y / w) := by
  have := h.mul (h'.inv hn hw)
  rw [mul_one_div, mul_one_div] at this
  exact this

theorem sqrt (h : NearR m x y) (hm : m ≤ 2 ^ 40) (hy : 0 < y) : NearR m (√x) (√y) := by
  have hx := h.pos hm hy
  have hs := Real.sqrt_pos.2 hy
  have e : x - y = (√x - √y) * (√x + √y) := by
    have a := Real.mul_self_sqrt hx.le
    have b := Real.mul_self_sqrt hy.le
    linear_combination b - a
  rw [NearR, abs_of_pos hy, e, abs_mul, abs_of_pos (show 0 < √x + √y by positivity)] at h
  rw [NearR, abs_of_pos hs]
  have k : |√x - √y| * √y ≤ (upR m - 1) * √y * √y := by
    rw [mul_assoc, Real.mul_self_sqrt hy.le]
    refine le_trans ?_ h
    exact mul_le_mul_of_nonneg_left (by linarith [Real.sqrt_nonneg x]) (abs_nonneg _)
  exact le_of_mul_le_mul_right k hs

theorem prod {α : Type} {a b : α → ℝ} (l : List α) (h : ∀ t ∈ l, NearR m (a t) (b t)) :
    NearR (m * l.length) (l.map a).prod (l.map b).prod := by
  induction l with
  | nil => simpa using refl 1
  | cons t l ih =>
    have := (h t (by simp)).mul (ih fun q hq => h q (by simp [hq]))
    simp only [List.map_cons, List.prod_cons, List.length_cons]
    exact this.mono (by rw [Nat.mul_succ, Nat.add_comm])

theorem bound (h : NearR m x y) (hm : m ≤ 2 ^ 40) : |x - y| ≤ 17 / 16 * m / 2 ^ 53 * |y| :=
  le_trans h (mul_le_mul_of_nonneg_right (by linarith [upR_le m hm]) (abs_nonneg _))

end NearR

end DDC
