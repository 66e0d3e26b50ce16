import Verif.Spec.Float
import Mathlib.Algebra.BigOperators.Intervals
import Mathlib.Algebra.Order.BigOperators.Group.Finset
import Mathlib.Tactic.Linarith
import Mathlib.Tactic.Ring
import Mathlib.Tactic.FieldSimp

/-!
# Relative errors after a number of operations

`Near m x y` says that `x` is what `m` operations with rounding may make of `y`.
-/

namespace DDC

open Finset

/-- The growth of a value in `m` operations with rounding. -/
def up (m : Nat) : Rat := (1 + 1 / 2 ^ 53) ^ m

theorem one_le_up (m : Nat) : 1 ≤ up m := one_le_pow₀ (by norm_num)

theorem up_add (m n : Nat) : up (m + n) = up m * up n := pow_add _ _ _

theorem up_mono {m n : Nat} (h : m ≤ n) : up m ≤ up n := pow_le_pow_right₀ (by norm_num) h

theorem up_le (m : Nat) (hm : m ≤ 2 ^ 40) : up m ≤ 1 + 17 / 16 * m / 2 ^ 53 := by
  induction m with
  | zero => simp [up]
  | succ m ih =>
    have h := ih (by omega)
    have hm' : (m : Rat) ≤ 1099511627776 := by exact_mod_cast (show m ≤ 1099511627776 by omega)
    have e : up (m + 1) = up m * (1 + 1 / 2 ^ 53) := pow_succ _ _
    rw [e]
    push_cast
    norm_num at h ⊢
    linarith

theorem up_small (m : Nat) (hm : m ≤ 2 ^ 40) : up m ≤ 9 / 8 := by
  have := up_le m hm
  have hm' : (m : Rat) ≤ 1099511627776 := by exact_mod_cast hm
  norm_num at this ⊢
  linarith

/-- `x` is `y` up to `m` operations with rounding. -/
def Near (m : Nat) (x y : Rat) : Prop := |x - y| ≤ (up m - 1) * |y|

namespace Near

variable {m n : Nat} {x y z w : Rat}

theorem refl (x : Rat) : Near 0 x x := by simp [Near, up]

theorem mono (h : Near m x y) (hmn : m ≤ n) : Near n x y :=
  h.trans (mul_le_mul_of_nonneg_right (by linarith [up_mono hmn]) (abs_nonneg _))

theorem abs_le (h : Near m x y) : |x| ≤ up m * |y| := by
  have h1 := abs_sub_abs_le_abs_sub x y
  rw [Near] at h
  linarith

theorem mul (h : Near m x y) (h' : Near n z w) : Near (m + n) (x * z) (y * w) := by
  have a := h'.abs_le
  have e : x * z - y * w = (x - y) * z + y * (z - w) := by ring
  rw [Near, e, up_add, abs_mul]
  refine (abs_add_le _ _).trans ?_
  rw [abs_mul, abs_mul]
  have m0 : 0 ≤ (up m - 1) * |y| := mul_nonneg (by linarith [one_le_up m]) (abs_nonneg _)
  have k1 := mul_le_mul h a (abs_nonneg _) m0
  have k2 := mul_le_mul_of_nonneg_left h' (abs_nonneg y)
  calc |x - y| * |z| + |y| * |z - w| ≤ (up m - 1) * |y| * (up n * |w|) + |y| * ((up n - 1) * |w|) := add_le_add k1 k2
    _ = _ := by ring

theorem fl {fl : Rat → Rat} (hfl : Spec.RoundsAll fl) (h : Near m x y) : Near (m + 1) (fl x) y := by
  have k1 := hfl.error x
  have k2 := h.abs_le
  have k3 := abs_sub_le (fl x) x y
  rw [Near] at h ⊢
  have e : up (m + 1) = up m * (1 + 1 / 2 ^ 53) := pow_succ _ _
  rw [e]
  have k4 : |x| / 2 ^ 53 ≤ up m * |y| / 2 ^ 53 := by gcongr
  calc |fl x - y| ≤ up m * |y| / 2 ^ 53 + (up m - 1) * |y| := by linarith
    _ = _ := by ring

theorem neg (h : Near m x y) : Near m (-x) (-y) := by
  rw [Near, abs_neg, ← neg_sub', abs_neg]; exact h

/-- No cancellation. -/
theorem add (h : Near m x y) (h' : Near m z w) (hs : |y + w| = |y| + |w|) : Near m (x + z) (y + w) := by
  rw [Near, hs, mul_add, add_sub_add_comm]
  exact (abs_add_le _ _).trans (add_le_add h h')

theorem sub (h : Near m x y) (h' : Near m z w) (hs : |y - w| = |y| + |w|) : Near m (x - z) (y - w) := by
  rw [sub_eq_add_neg, sub_eq_add_neg]
  refine h.add h'.neg ?_
  rw [← sub_eq_add_neg, abs_neg]; exact hs

theorem pos (h : Near m x y) (hm : m ≤ 2 ^ 40) (hy : 0 < y) : 0 < x := by
  have k := (_root_.abs_le.1 h).1
  rw [abs_of_pos hy] at k
  have := mul_le_mul_of_nonneg_right (up_small m hm) hy.le
  linarith

theorem nonneg (h : Near m x y) (hm : m ≤ 2 ^ 40) (hy : 0 ≤ y) : 0 ≤ x := by
  have k := (_root_.abs_le.1 h).1
  rw [abs_of_nonneg hy] at k
  have := mul_le_mul_of_nonneg_right (up_small m hm) hy
  linarith

theorem inv (h : Near m x y) (hm : m ≤ 2 ^ 40) (hy : 0 < y) : Near (2 * m) (1 / x) (1 / y) := by
  have hx := h.pos hm hy
  have k := _root_.abs_le.1 h
  have t1 := one_le_up m
  have t2 := up_small m hm
  rw [abs_of_pos hy] at k
  have hy' : 0 < 1 / y := by positivity
  rw [Near, abs_of_pos hy', two_mul, up_add]
  generalize up m = t at *
  have e : 1 / x - 1 / y = (y - x) / (x * y) := by field_simp
  rw [e, abs_div, abs_of_pos (show 0 < x * y by positivity), div_le_iff₀ (by positivity)]
  have e' : (t * t - 1) * (1 / y) * (x * y) = (t * t - 1) * x := by field_simp
  rw [e', abs_sub_comm]
  refine (_root_.abs_le.2 k).trans ?_
  have c : (t - 1) * y ≤ (t - 1) * ((t + 1) * x) := by
    refine mul_le_mul_of_nonneg_left ?_ (by linarith)
    have := mul_le_mul_of_nonneg_left (show (2 - t) * y ≤ x by linarith) (show 0 ≤ t + 1 by linarith)
    have h3 : 1 ≤ (t + 1) * (2 - t) := by nlinarith
    have := mul_le_mul_of_nonneg_right h3 hy.le
    linarith
  linarith

end Near

/-- One more term of a sum. -/
theorem sum_step {fl : Rat → Rat} (hfl : Spec.RoundsAll fl) {m : Nat} {s S T y Y : Rat} (hS : |S| ≤ T)
    (h : |s - S| ≤ (up m - 1) * T) (hy : Near m y Y) :
    |S + Y| ≤ T + |Y| ∧ |fl (s + y) - (S + Y)| ≤ (up (m + 1) - 1) * (T + |Y|) := by
  have k0 : |S + Y| ≤ T + |Y| := (abs_add_le _ _).trans (add_le_add hS (le_refl _))
  refine ⟨k0, ?_⟩
  have e : up (m + 1) = up m * (1 + 1 / 2 ^ 53) := pow_succ _ _
  have k1 := hfl.error (s + y)
  have k2 : |s + y - (S + Y)| ≤ (up m - 1) * (T + |Y|) := by
    rw [add_sub_add_comm, mul_add]
    exact (abs_add_le _ _).trans (add_le_add h hy)
  have k3 : |s + y| ≤ up m * (T + |Y|) := by
    have := abs_sub_abs_le_abs_sub (s + y) (S + Y)
    linarith
  have k4 : |s + y| / 2 ^ 53 ≤ up m * (T + |Y|) / 2 ^ 53 := by gcongr
  have k5 := abs_sub_le (fl (s + y)) (s + y) (S + Y)
  rw [e]
  calc |fl (s + y) - (S + Y)| ≤ up m * (T + |Y|) / 2 ^ 53 + (up m - 1) * (T + |Y|) := by linarith
    _ = _ := by ring

end DDC
