import Verif.Spec.BSpline
import Mathlib.Tactic.Ring
import Mathlib.Tactic.FieldSimp
import Mathlib.Tactic.Linarith
import Mathlib.Tactic.LinearCombination
import Mathlib.Algebra.BigOperators.Intervals
import Mathlib.Algebra.Order.BigOperators.Ring.Finset

/-!
# Theory of B-splines

Facts about the Cox–de Boor recursion used by the properties C30 to C33; the code of DDC does not
appear here.
-/

namespace DDC.Spec

open Polynomial

variable {K : Type} [Field K] [LinearOrder K]

/-- Two different intervals do not contain the same point. -/
theorem InCell.unique {t : Nat → K} (ht : Monotone t) {b x : K} {i j : Nat} (hi : InCell t b x i)
    (hj : InCell t b x j) : i = j := by
  unfold InCell at *
  rcases lt_trichotomy i j with h | h | h
  · have := ht (show i + 1 ≤ j from h)
    split at hi
    · rw [if_pos ‹_›] at hj
      exact absurd (lt_of_lt_of_le hi.2 this) (not_lt.2 hj.1)
    · rw [if_neg ‹_›] at hj
      exact absurd (le_trans hi.2 this) (not_le.2 hj.1)
  · exact h
  · have := ht (show j + 1 ≤ i from h)
    split at hi
    · rw [if_pos ‹_›] at hj
      exact absurd (lt_of_lt_of_le hj.2 this) (not_lt.2 hi.1)
    · rw [if_neg ‹_›] at hj
      exact absurd (le_trans hj.2 this) (not_le.2 hi.1)

theorem InCell.lt {t : Nat → K} {b x : K} {i : Nat} (hi : InCell t b x i) : t i < t (i + 1) := by
  unfold InCell at hi
  split at hi
  · exact lt_of_le_of_lt hi.1 hi.2
  · exact lt_of_lt_of_le hi.1 hi.2

theorem InCell.le {t : Nat → K} {b x : K} {i : Nat} (hi : InCell t b x i) : t i ≤ x ∧ x ≤ t (i + 1) := by
  unfold InCell at hi
  split at hi
  · exact ⟨hi.1, hi.2.le⟩
  · exact ⟨hi.1.le, hi.2⟩

/-- On the interval `c`, the B-splines are their polynomial pieces. -/
theorem bspline_eq_piece {t : Nat → K} (ht : Monotone t) {b x : K} {c : Nat} (hc : InCell t b x c)
    (p i : Nat) : bspline t b p i x = (piece t c p i).eval x := by
  induction p generalizing i with
  | zero =>
    rw [bspline, piece]
    by_cases h : i = c
    · subst h; simp [hc]
    · rw [if_neg (fun e => h (e.unique ht hc)), if_neg h]; simp
  | succ p ih =>
    rw [bspline, piece, ih, ih]
    simp only [eval_add, eval_mul, eval_C, eval_sub, eval_X]
    ring

/-- Local support: on the interval `c` only the B-splines `c - p, …, c` do not vanish. -/
theorem piece_zero (t : Nat → K) (c p i : Nat) (h : c < i ∨ i + p < c) : piece t c p i = 0 := by
  induction p generalizing i with
  | zero => rw [piece, if_neg (by omega)]
  | succ p ih =>
    rw [piece, ih i (by omega), ih (i + 1) (by omega)]
    simp

theorem knots_lt {t : Nat → K} (ht : Monotone t) {c i j : Nat} (hc : t c < t (c + 1)) (hi : i ≤ c)
    (hj : c < j) : t i < t j :=
  lt_of_le_of_lt (ht hi) (lt_of_lt_of_le hc (ht hj))

/-- Non-negativity. -/
theorem bspline_nonneg [IsStrictOrderedRing K] {t : Nat → K} (ht : Monotone t) {b x : K} {c : Nat}
    (hc : InCell t b x c) (p i : Nat) : 0 ≤ bspline t b p i x := by
  induction p generalizing i with
  | zero => rw [bspline]; split <;> simp
  | succ p ih =>
    rw [bspline]
    have hz : ∀ i, bspline t b p i x ≠ 0 → i ≤ c ∧ c ≤ i + p := by
      intro i h
      rw [bspline_eq_piece ht hc] at h
      by_contra hn
      exact h (by rw [piece_zero t c p i (by omega)]; simp)
    have hx := hc.le
    apply add_nonneg
    · by_cases h : bspline t b p i x = 0
      · rw [h, mul_zero]
      · have := hz i h
        refine mul_nonneg (div_nonneg ?_ ?_) (ih i)
        · have := ht this.1; linarith
        · have := ht (show i ≤ i + p + 1 by omega); linarith
    · by_cases h : bspline t b p (i + 1) x = 0
      · rw [h, mul_zero]
      · have := hz (i + 1) h
        refine mul_nonneg (div_nonneg ?_ ?_) (ih _)
        · have := ht (show c + 1 ≤ i + p + 2 by omega); linarith
        · have := ht (show i + 1 ≤ i + p + 2 by omega); linarith

/-- The two coefficients with which a B-spline of degree `p` enters those of degree `p + 1` add up to
one. -/
theorem coeff_add {t : Nat → K} {i j : Nat} {x : K} (h : t i ≠ t j) :
    (x - t i) / (t j - t i) + (t j - x) / (t j - t i) = 1 := by
  have : t j - t i ≠ 0 := sub_ne_zero.2 (Ne.symm h)
  field_simp
  ring

/-- Partition of unity. -/
theorem bspline_sum {t : Nat → K} (ht : Monotone t) {b x : K} {c : Nat} (hc : InCell t b x c) (p m : Nat)
    (hm : c = m + p) : ∑ r ∈ Finset.range (p + 1), bspline t b p (m + r) x = 1 := by
  induction p generalizing m with
  | zero =>
    have : c = m + 0 := hm
    rw [Finset.sum_range_one, bspline, ← this, if_pos hc]
  | succ p ih =>
    have h0 : bspline t b p m x = 0 := by
      rw [bspline_eq_piece ht hc, piece_zero t c p m (by omega)]; simp
    have h1 : bspline t b p (m + (p + 2)) x = 0 := by
      rw [bspline_eq_piece ht hc, piece_zero t c p _ (by omega)]; simp
    have ih := ih (m + 1) (by omega)
    simp only [bspline]
    rw [Finset.sum_add_distrib, Finset.sum_range_succ', Finset.sum_range_succ _ (p + 1)]
    have e1 : m + (p + 1) + 1 = m + (p + 2) := by omega
    rw [← Nat.add_zero m] at h0
    rw [e1, h1, h0, mul_zero, mul_zero, add_zero, add_zero, ← Finset.sum_add_distrib]
    rw [← ih]
    apply Finset.sum_congr rfl
    intro r hr
    have hr := Finset.mem_range.1 hr
    have e2 : m + (r + 1) = m + 1 + r := by omega
    have e3 : m + r + 1 = m + 1 + r := by omega
    have e4 : m + r + p + 2 = m + 1 + r + p + 1 := by omega
    rw [e2, e3, e4, ← add_mul, coeff_add, one_mul]
    exact (knots_lt ht hc.lt (by omega) (by omega)).ne

/-! ## The triangular scheme -/

/-- One step of the triangular scheme: the `r`-th non-vanishing B-spline of degree `j + 1` from those
of degree `j` (`c = m + j + 1`). -/
theorem bspline_step {t : Nat → K} (ht : Monotone t) {b x : K} {c : Nat} (hc : InCell t b x c)
    (j m r : Nat) (hm : c = m + (j + 1)) :
    bspline t b (j + 1) (m + r) x =
      (if r = 0 then 0 else
        (x - t (m + r)) / (t (c + r) - t (m + r)) * bspline t b j (m + r) x) +
      (if r = j + 1 then 0 else
        (t (c + r + 1) - x) / (t (c + r + 1) - t (m + r + 1)) * bspline t b j (m + r + 1) x) := by
  subst hm
  rw [bspline]
  congr 1
  · split
    · subst r
      rw [bspline_eq_piece ht hc j, piece_zero t _ j _ (by omega)]; simp
    · have : m + r + j + 1 = m + (j + 1) + r := by omega
      rw [this]
  · split
    · subst r
      rw [bspline_eq_piece ht hc j (m + (j + 1) + 1), piece_zero t _ j _ (by omega)]; simp
    · have : m + r + j + 2 = m + (j + 1) + r + 1 := by omega
      rw [this]

/-! ## Derivatives -/

/-- Derivative of the polynomial pieces in terms of those of lower degree. -/
theorem derivative_piece {t : Nat → K} (ht : Monotone t) (c p i : Nat) :
    derivative (piece t c (p + 1) i) =
      C ((p + 1 : Nat) : K) * (C (1 / (t (i + p + 1) - t i)) * piece t c p i -
        C (1 / (t (i + p + 2) - t (i + 1))) * piece t c p (i + 1)) := by
  induction p generalizing i with
  | zero =>
    simp only [piece, derivative_add, derivative_mul, derivative_C, derivative_sub, derivative_X]
    split <;> split <;> simp <;> ring
  | succ p ih =>
    have key : C (1 / (t (i + p + 2) - t (i + 1))) *
        (C (1 / (t (i + p + 2) - t i)) * C (t (i + p + 2) - t i)) =
        C (1 / (t (i + p + 2) - t (i + 1))) *
        (C (1 / (t (i + p + 3) - t (i + 1))) * C (t (i + p + 3) - t (i + 1))) := by
      rw [← C_mul, ← C_mul, ← C_mul, ← C_mul]
      congr 1
      by_cases h : t (i + 1) = t (i + p + 2)
      · rw [h]; simp
      · have l1 : t (i + 1) < t (i + p + 2) := lt_of_le_of_ne (ht (by omega)) h
        have l2 : t i < t (i + p + 2) := lt_of_le_of_lt (ht (by omega)) l1
        have l3 : t (i + 1) < t (i + p + 3) := lt_of_lt_of_le l1 (ht (by omega))
        have n2 : t (i + p + 2) - t i ≠ 0 := sub_ne_zero.2 l2.ne'
        have n3 : t (i + p + 3) - t (i + 1) ≠ 0 := sub_ne_zero.2 l3.ne'
        rw [one_div_mul_cancel n2, one_div_mul_cancel n3]
    have e1 : i + (p + 1) + 1 = i + p + 2 := by omega
    have e2 : i + (p + 1) + 2 = i + p + 3 := by omega
    have e3 : i + 1 + p + 1 = i + p + 2 := by omega
    have e4 : i + 1 + p + 2 = i + p + 3 := by omega
    rw [piece]
    simp only [derivative_add, derivative_mul, derivative_C, derivative_sub, derivative_X, ih, e1, e2,
      e3, e4]
    rw [piece, piece]
    simp only [e1, e2, e3, e4] at *
    simp only [C_sub] at key
    push_cast
    simp only [C_add, C_1] at *
    linear_combination (-(C (p : K) + 1) * piece t c p (i + 1)) * key

/-- Same statement without case distinction on the degree, evaluated on an interval. -/
theorem derivative_sum {t : Nat → K} (ht : Monotone t) (c p m : Nat) (hm : c = m + (p + 1)) :
    ∑ r ∈ Finset.range (p + 2), derivative (piece t c (p + 1) (m + r)) = 0 := by
  simp only [derivative_piece ht]
  rw [← Finset.mul_sum, Finset.sum_sub_distrib]
  rw [Finset.sum_range_succ' _ (p + 1), Finset.sum_range_succ _ (p + 1)]
  rw [piece_zero t c p (m + 0) (by omega), piece_zero t c p (m + (p + 1) + 1) (by omega)]
  simp only [mul_zero, add_zero]
  rw [← Finset.sum_sub_distrib]
  rw [Finset.sum_eq_zero, mul_zero]
  intro r _
  have e2 : m + (r + 1) = m + r + 1 := by omega
  have e3 : m + r + 1 + p + 1 = m + r + p + 2 := by omega
  rw [e2, e3, sub_self]

end DDC.Spec
