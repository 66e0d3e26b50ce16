import Mathlib.Algebra.Order.Field.Basic
import Mathlib.Tactic.FieldSimp
import Mathlib.Tactic.Positivity
import Mathlib.Tactic.Ring

/-!
# Cubic B-splines at the averages of their knots

The inequality behind the well-posedness of the periodic problem with cubic splines: weighted, the B-spline at
its own average exceeds the others together.
-/

namespace DDC.Spec

variable {K : Type} [Field K] [LinearOrder K] [IsStrictOrderedRing K]

/-- `h` is the length of the cell of the average, `s` the distance of the average to one end of the cell, `a` and
`c` the lengths of the next cells on this side, `b` the length of the next cell on the other side; `N0`, `N1`,
`N2` are the B-splines of degree 2.  The coefficients of the numerator are positive. -/
theorem cubic_ineq {a s b c h N0 N1 N2 : K} (ha : 0 < a) (hs : 0 ≤ s) (hb : 0 < b) (hc : 0 < c) (hh : h = a + 3 * s)
    (e0 : N0 = (h - s) ^ 2 / ((h + a) * h)) (e2 : N2 = s ^ 2 / (h * (h + b))) (e1 : N1 = 1 - N0 - N2) :
    (h - s) / (h + a + c) * N0 * (1 + (a + c) / (h + a + c)) + 2 * ((s + a) / (h + a + b) * N1 + N2) <
      ((s + a + c) / (h + a + c) * N0 + (h + b - s) / (h + a + b) * N1) * (1 + (h + a) / (h + a + b + c)) := by
  subst hh e1 e0 e2
  rw [← sub_pos]
  obtain ⟨q00, h00⟩ : ∃ q : K, q = 4 * a ^ 7 + 60 * a ^ 6 * s + 333 * a ^ 5 * s ^ 2 + 952 * a ^ 4 * s ^ 3 +
      1557 * a ^ 3 * s ^ 4 + 1476 * a ^ 2 * s ^ 5 + 756 * a * s ^ 6 + 162 * s ^ 7 := ⟨_, rfl⟩
  have p00 : 0 < q00 := by rw [h00]; positivity
  obtain ⟨q01, h01⟩ : ∃ q : K, q = 10 * a ^ 6 + 123 * a ^ 5 * s + 564 * a ^ 4 * s ^ 2 + 1301 * a ^ 3 * s ^ 3 +
      1623 * a ^ 2 * s ^ 4 + 1044 * a * s ^ 5 + 270 * s ^ 6 := ⟨_, rfl⟩
  have p01 : 0 < q01 := by rw [h01]; positivity
  obtain ⟨q02, h02⟩ : ∃ q : K, q = 6 * a ^ 5 + 63 * a ^ 4 * s + 237 * a ^ 3 * s ^ 2 + 426 * a ^ 2 * s ^ 3 +
      372 * a * s ^ 4 + 126 * s ^ 5 := ⟨_, rfl⟩
  have p02 : 0 < q02 := by rw [h02]; positivity
  obtain ⟨q03, h03⟩ : ∃ q : K, q = a ^ 4 + 9 * a ^ 3 * s + 27 * a ^ 2 * s ^ 2 + 36 * a * s ^ 3 +
      18 * s ^ 4 := ⟨_, rfl⟩
  have p03 : 0 < q03 := by rw [h03]; positivity
  obtain ⟨q10, h10⟩ : ∃ q : K, q = 16 * a ^ 6 + 198 * a ^ 5 * s + 927 * a ^ 4 * s ^ 2 + 2181 * a ^ 3 * s ^ 3 +
      2769 * a ^ 2 * s ^ 4 + 1818 * a * s ^ 5 + 486 * s ^ 6 := ⟨_, rfl⟩
  have p10 : 0 < q10 := by rw [h10]; positivity
  obtain ⟨q11, h11⟩ : ∃ q : K, q = 35 * a ^ 5 + 357 * a ^ 4 * s + 1344 * a ^ 3 * s ^ 2 + 2393 * a ^ 2 * s ^ 3 +
      2037 * a * s ^ 4 + 666 * s ^ 5 := ⟨_, rfl⟩
  have p11 : 0 < q11 := by rw [h11]; positivity
  obtain ⟨q12, h12⟩ : ∃ q : K, q = 20 * a ^ 4 + 171 * a ^ 3 * s + 507 * a ^ 2 * s ^ 2 + 632 * a * s ^ 3 +
      282 * s ^ 4 := ⟨_, rfl⟩
  have p12 : 0 < q12 := by rw [h12]; positivity
  obtain ⟨q13, h13⟩ : ∃ q : K, q = 3 * a ^ 3 + 21 * a ^ 2 * s + 45 * a * s ^ 2 + 30 * s ^ 3 := ⟨_, rfl⟩
  have p13 : 0 < q13 := by rw [h13]; positivity
  obtain ⟨q20, h20⟩ : ∃ q : K, q = 15 * a ^ 5 + 147 * a ^ 4 * s + 534 * a ^ 3 * s ^ 2 + 923 * a ^ 2 * s ^ 3 +
      771 * a * s ^ 4 + 252 * s ^ 5 := ⟨_, rfl⟩
  have p20 : 0 < q20 := by rw [h20]; positivity
  obtain ⟨q21, h21⟩ : ∃ q : K, q = 30 * a ^ 4 + 234 * a ^ 3 * s + 636 * a ^ 2 * s ^ 2 + 727 * a * s ^ 3 +
      297 * s ^ 4 := ⟨_, rfl⟩
  have p21 : 0 < q21 := by rw [h21]; positivity
  obtain ⟨q22, h22⟩ : ∃ q : K, q = 16 * a ^ 3 + 99 * a ^ 2 * s + 189 * a * s ^ 2 + 114 * s ^ 3 := ⟨_, rfl⟩
  have p22 : 0 < q22 := by rw [h22]; positivity
  obtain ⟨q23, h23⟩ : ∃ q : K, q = 2 * a ^ 2 + 9 * a * s + 9 * s ^ 2 := ⟨_, rfl⟩
  have p23 : 0 < q23 := by rw [h23]; positivity
  obtain ⟨q30, h30⟩ : ∃ q : K, q = 3 * a ^ 4 + 24 * a ^ 3 * s + 66 * a ^ 2 * s ^ 2 + 77 * a * s ^ 3 +
      33 * s ^ 4 := ⟨_, rfl⟩
  have p30 : 0 < q30 := by rw [h30]; positivity
  obtain ⟨q31, h31⟩ : ∃ q : K, q = 5 * a ^ 3 + 30 * a ^ 2 * s + 54 * a * s ^ 2 + 30 * s ^ 3 := ⟨_, rfl⟩
  have p31 : 0 < q31 := by rw [h31]; positivity
  obtain ⟨q32, h32⟩ : ∃ q : K, q = 2 * a ^ 2 + 9 * a * s + 9 * s ^ 2 := ⟨_, rfl⟩
  have p32 : 0 < q32 := by rw [h32]; positivity
  have e : ((s + a + c) / (a + 3 * s + a + c) * ((a + 3 * s - s) ^ 2 / ((a + 3 * s + a) * (a + 3 * s))) +
      (a + 3 * s + b - s) / (a + 3 * s + a + b) * (1 - (a + 3 * s - s) ^ 2 / ((a + 3 * s + a) * (a + 3 * s)) -
        s ^ 2 / ((a + 3 * s) * (a + 3 * s + b)))) * (1 + (a + 3 * s + a) / (a + 3 * s + a + b + c)) -
      ((a + 3 * s - s) / (a + 3 * s + a + c) * ((a + 3 * s - s) ^ 2 / ((a + 3 * s + a) * (a + 3 * s))) *
        (1 + (a + c) / (a + 3 * s + a + c)) + 2 * ((s + a) / (a + 3 * s + a + b) *
        (1 - (a + 3 * s - s) ^ 2 / ((a + 3 * s + a) * (a + 3 * s)) - s ^ 2 / ((a + 3 * s) * (a + 3 * s + b))) +
        s ^ 2 / ((a + 3 * s) * (a + 3 * s + b)))) =
      (q00 + q01 * c + q02 * c ^ 2 + q03 * c ^ 3 + q10 * b + q11 * b * c + q12 * b * c ^ 2 + q13 * b * c ^ 3 +
      q20 * b ^ 2 + q21 * b ^ 2 * c + q22 * b ^ 2 * c ^ 2 + q23 * b ^ 2 * c ^ 3 + q30 * b ^ 3 + q31 * b ^ 3 * c +
      q32 * b ^ 3 * c ^ 2) /
      ((a + 3 * s + a) * (a + 3 * s) * (a + 3 * s + a + c) ^ 2 * (a + 3 * s + a + b) * (a + 3 * s + b) *
        (a + 3 * s + a + b + c)) := by
    subst h00 h01 h02 h03 h10 h11 h12 h13 h20 h21 h22 h23 h30 h31 h32
    field_simp
    ring
  rw [e]
  positivity

end DDC.Spec
