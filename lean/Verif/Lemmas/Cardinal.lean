import Verif.Lemmas.UBS
import Mathlib.Tactic.Linarith
import Mathlib.Tactic.FieldSimp
import Mathlib.Tactic.Ring

/-!
# Uniform B-splines are shifts of one symmetric function
-/

set_option linter.unusedSectionVars false

namespace DDC

open Spec

variable {K : Type} [Field K] [LinearOrder K] [IsStrictOrderedRing K]

/-- The uniform B-spline of degree `q + 1` with the knots `0, 1, …, q + 2`. -/
def cardinal : Nat → K → K
  | 0, x => max 0 (min x (2 - x))
  | q + 1, x => (x * cardinal q x + ((q : K) + 3 - x) * cardinal q (x - 1)) / ((q : K) + 2)

theorem cardinal_symm (q : Nat) (x : K) : cardinal q ((q : K) + 2 - x) = cardinal q x := by
  induction q generalizing x with
  | zero =>
    simp only [cardinal, Nat.cast_zero, zero_add, sub_sub_cancel]
    rw [min_comm]
  | succ q ih =>
    simp only [cardinal, Nat.cast_add, Nat.cast_one]
    have h1 : cardinal q ((q : K) + 1 + 2 - x) = cardinal q (x - 1) := by
      rw [← ih (x - 1)]; congr 1; ring
    have h2 : cardinal q ((q : K) + 1 + 2 - x - 1) = cardinal q x := by
      rw [← ih x]; congr 1; ring
    rw [h1, h2]
    congr 1
    ring

theorem cardinal_neg (q : Nat) {x : K} (hx : x ≤ 0) : cardinal q x = 0 := by
  induction q generalizing x with
  | zero => rw [cardinal, max_eq_left (by rw [min_le_iff]; exact Or.inl hx)]
  | succ q ih => rw [cardinal, ih hx, ih (by linarith)]; simp

theorem cardinal_big (q : Nat) {x : K} (hx : (q : K) + 2 ≤ x) : cardinal q x = 0 := by
  rw [← cardinal_symm]
  exact cardinal_neg q (by linarith)

theorem cardinal_nonneg (q : Nat) (x : K) : 0 ≤ cardinal q x := by
  induction q generalizing x with
  | zero => exact le_max_left _ _
  | succ q ih =>
    by_cases h1 : x ≤ 0
    · rw [cardinal_neg _ h1]
    by_cases h2 : (q : K) + 3 ≤ x
    · rw [cardinal_big _ (by push_cast; linarith)]
    have h0 : (0 : K) ≤ q := Nat.cast_nonneg q
    rw [cardinal]
    have := mul_nonneg (show 0 ≤ x by linarith) (ih x)
    have := mul_nonneg (show 0 ≤ (q : K) + 3 - x by linarith) (ih (x - 1))
    exact div_nonneg (by linarith) (by linarith)

/-- The difference of two consecutive values. -/
theorem cardinal_diff (q : Nat) (x : K) : ((q : K) + 2) * (cardinal (q + 1) x - cardinal (q + 1) (x - 1)) =
    x * (cardinal q x - cardinal q (x - 1)) + ((q : K) + 4 - x) * (cardinal q (x - 1) - cardinal q (x - 2)) := by
  have h0 : (0 : K) ≤ q := Nat.cast_nonneg q
  have h2 : (q : K) + 2 ≠ 0 := by linarith
  rw [cardinal, cardinal, sub_sub, one_add_one_eq_two]
  field_simp
  ring

/-- The values at the multiples of `1/2` increase up to the centre. -/
theorem cardinal_step (q : Nat) (m : Int) (h0 : 0 < m) (h1 : m ≤ q + 2) :
    (cardinal q ((m : K) / 2 - 1)) < cardinal q ((m : K) / 2) := by
  induction q generalizing m with
  | zero =>
    obtain rfl | rfl : m = 1 ∨ m = 2 := by omega
    · norm_num [cardinal]
    · norm_num [cardinal]
  | succ q ih =>
    have hq : (0 : K) ≤ q := Nat.cast_nonneg q
    have hm0 : (0 : K) < m := by exact_mod_cast h0
    have hm1 : (m : K) ≤ q + 3 := by exact_mod_cast (by push_cast at h1; omega)
    have hd := cardinal_diff q ((m : K) / 2)
    have hw : 0 ≤ cardinal q ((m : K) / 2 - 1) - cardinal q ((m : K) / 2 - 2) := by
      by_cases hc : m ≤ 2
      · have : (m : K) ≤ 2 := by exact_mod_cast hc
        rw [cardinal_neg q (show (m : K) / 2 - 1 ≤ 0 by linarith), cardinal_neg q (show (m : K) / 2 - 2 ≤ 0 by linarith)]
        simp
      · have := ih (m - 2) (by omega) (by push_cast at h1; omega)
        push_cast at this
        rw [show ((m : K) - 2) / 2 - 1 = (m : K) / 2 - 2 by ring, show ((m : K) - 2) / 2 = (m : K) / 2 - 1 by ring] at this
        linarith
    have key : 0 < ((q : K) + 2) * (cardinal (q + 1) ((m : K) / 2) - cardinal (q + 1) ((m : K) / 2 - 1)) := by
      rw [hd]
      by_cases hc : m ≤ q + 2
      · have hu := ih m h0 hc
        have a1 := mul_pos (show 0 < (m : K) / 2 by linarith) (sub_pos.2 hu)
        have a2 := mul_nonneg (show 0 ≤ (q : K) + 4 - (m : K) / 2 by linarith) hw
        linarith
      · have hm : m = q + 3 := by push_cast at h1; omega
        have hmK : (m : K) = q + 3 := by rw [hm]; push_cast; rfl
        have hs : cardinal q ((m : K) / 2) = cardinal q ((m : K) / 2 - 1) := by
          rw [← cardinal_symm q ((m : K) / 2)]
          congr 1
          rw [hmK]; ring
        have := ih (m - 2) (by omega) (by omega)
        push_cast at this
        rw [show ((m : K) - 2) / 2 - 1 = (m : K) / 2 - 2 by ring, show ((m : K) - 2) / 2 = (m : K) / 2 - 1 by ring] at this
        rw [hs, sub_self, mul_zero, zero_add]
        exact mul_pos (by linarith) (by linarith)
    have := pos_of_mul_pos_right key (by linarith)
    linarith

/-- The B-splines on equidistant knots, whatever the convention at the right end. -/
theorem bspline_cardinal {t : Nat → K} {h : K} (hh : 0 < h) (ht : ∀ k j : Nat, t (k + j) = t k + (j : K) * h) (b : K)
    (q i : Nat) (x : K) : bspline t b (q + 1) i x = cardinal q ((x - t i) / h) := by
  have hs : ∀ k, t (k + 1) = t k + h := fun k => by rw [ht k 1]; simp
  induction q generalizing i with
  | zero =>
    obtain ⟨y, hy⟩ : ∃ y, y = (x - t i) / h := ⟨_, rfl⟩
    have hx : x = t i + y * h := by rw [hy]; field_simp; ring
    have e1 : t (i + 1) = t i + h := hs i
    have e2 : t (i + 2) = t i + 2 * h := by rw [hs (i + 1), hs i]; ring
    have c1 : (x - t i) / (t (i + 0 + 1) - t i) = y := by
      rw [Nat.add_zero, e1, hy]; congr 1; ring
    have c2 : (t (i + 0 + 2) - x) / (t (i + 0 + 2) - t (i + 1)) = 2 - y := by
      rw [Nat.add_zero, e2, e1, hx, show t i + 2 * h - (t i + y * h) = (2 - y) * h by ring,
        show t i + 2 * h - (t i + h) = h by ring, mul_div_assoc, div_self hh.ne', mul_one]
    rw [← hy, bspline, bspline, bspline, c1, c2, cardinal]
    simp only [InCell, e1, e2]
    rw [hx]
    have m1 : ∀ z : K, (z * h < 0 ↔ z < 0) := fun z => by
      constructor
      · intro hz; by_contra hc; have := mul_nonneg (not_lt.1 hc) hh.le; linarith
      · intro hz; exact mul_neg_of_neg_of_pos hz hh
    have l1 : t i ≤ t i + y * h ↔ 0 ≤ y := by rw [← not_lt, ← not_lt, ← m1]; constructor <;> intro hz hc <;> apply hz <;> linarith
    have l2 : t i + y * h < t i + h ↔ y < 1 := by
      rw [← sub_neg (a := y), ← m1]; constructor <;> intro hz <;> linarith
    have l3 : t i + h ≤ t i + y * h ↔ 1 ≤ y := by rw [← not_lt, l2, not_lt]
    have l4 : t i + y * h < t i + 2 * h ↔ y < 2 := by
      rw [← sub_neg (a := y), ← m1]; constructor <;> intro hz <;> linarith
    have l5 : t i < t i + y * h ↔ 0 < y := by
      rw [← neg_lt_zero, ← m1]; constructor <;> intro hz <;> linarith
    have l6 : t i + y * h ≤ t i + h ↔ y ≤ 1 := by
      rw [← not_lt, ← not_lt, ← sub_neg (a := 1), ← m1]
      constructor <;> intro hz hc <;> apply hz <;> linarith
    have l7 : t i + h < t i + y * h ↔ 1 < y := by rw [← not_le, l6, not_le]
    have l8 : t i + y * h ≤ t i + 2 * h ↔ y ≤ 2 := by
      rw [← not_lt, ← not_lt, ← sub_neg (a := 2), ← m1]
      constructor <;> intro hz hc <;> apply hz <;> linarith
    simp only [l1, l2, l3, l4, l5, l6, l7, l8]
    rcases le_or_gt y 0 with y0 | y0
    · rw [max_eq_left (by rw [min_le_iff]; exact Or.inl y0)]
      rcases y0.lt_or_eq with y1 | rfl
      · split_ifs <;> first | (exfalso; grind) | simp
      · split_ifs <;> first | (exfalso; grind) | simp
    rcases le_or_gt 2 y with y2 | y2
    · rw [max_eq_left (by rw [min_le_iff]; right; linarith)]
      rcases y2.lt_or_eq with y1 | rfl
      · split_ifs <;> first | (exfalso; grind) | simp
      · split_ifs <;> first | (exfalso; grind) | simp
    rcases lt_trichotomy y 1 with y1 | rfl | y1
    · rw [min_eq_left (by linarith), max_eq_right y0.le]
      split_ifs <;> first | (exfalso; grind) | simp
    · split_ifs <;> first | (exfalso; grind) | norm_num
    · rw [min_eq_right (by linarith), max_eq_right (by linarith)]
      split_ifs <;> first | (exfalso; grind) | simp
  | succ q ih =>
    have hq : (0 : K) ≤ q := Nat.cast_nonneg q
    have d1 : t (i + (q + 1) + 1) - t i = ((q : K) + 2) * h := by
      rw [Nat.add_assoc, ht i]; push_cast; ring
    have d2 : t (i + (q + 1) + 2) - t (i + 1) = ((q : K) + 2) * h := by
      rw [show i + (q + 1) + 2 = (i + 1) + (q + 2) by omega, ht (i + 1)]; push_cast; ring
    have d3 : t (i + (q + 1) + 2) = t i + ((q : K) + 3) * h := by
      rw [Nat.add_assoc, ht i]; push_cast; ring
    rw [bspline, ih, ih, d1, d2, d3, cardinal, hs i]
    have e : (x - (t i + h)) / h = (x - t i) / h - 1 := by field_simp; ring
    rw [e]
    have : (q : K) + 2 ≠ 0 := by linarith
    field_simp
    ring

end DDC
