import Verif.Lemmas.Triangle
import Verif.Spec.Float
import Mathlib.Algebra.BigOperators.Intervals
import Mathlib.Algebra.Order.BigOperators.Group.Finset
import Mathlib.Algebra.Order.BigOperators.Ring.Finset

/-!
# The triangular scheme with rounding

The lines of the triangle that `eval_basis` computes: they stay non-negative, their sums stay close to one and
they stay close to the exact lines.
-/

namespace DDC

open Finset

/-- Entry `r` of the line `j` of the computed triangle, with numerators `A`, `B` and denominators `D`. -/
def triR (fl : Rat → Rat) (A B D : Nat → Nat → Rat) (s0 : Rat) : Nat → Nat → Rat
  | 0, _ => s0
  | j + 1, r =>
    let S := if r = 0 then 0 else fl (B j (r - 1) * fl (triR fl A B D s0 j (r - 1) / D j (r - 1)))
    if r = j + 1 then S else fl (S + fl (A j r * fl (triR fl A B D s0 j r / D j r)))

theorem sum_line (f g : Nat → Rat) (j : Nat) :
    ∑ r ∈ range (j + 2), ((if r = 0 then 0 else f (r - 1)) + (if r = j + 1 then 0 else g r)) =
      ∑ r ∈ range (j + 1), (f r + g r) := by
  rw [sum_add_distrib, sum_add_distrib]
  congr 1
  · rw [sum_range_succ']
    simp
  · rw [sum_range_succ, if_pos rfl, add_zero]
    exact sum_congr rfl fun r hr => if_neg (by rw [mem_range] at hr; omega)

/-- The growth of an error in three operations. -/
def growth : Rat := (1 + 1 / 2 ^ 53) ^ 3 - 1

theorem two_ops {fl : Rat → Rat} (hfl : Spec.RoundsAll fl) {b v : Rat} (hb : 0 ≤ b) (hv : 0 ≤ v) :
    0 ≤ fl (b * fl v) ∧ (1 - 1 / 2 ^ 53) ^ 2 * (b * v) ≤ fl (b * fl v) ∧
      fl (b * fl v) ≤ (1 + 1 / 2 ^ 53) ^ 2 * (b * v) := by
  have h1 := abs_le.1 (hfl.error v)
  rw [abs_of_nonneg hv] at h1
  have h0 : 0 ≤ fl v := by
    have : v / 2 ^ 53 ≤ v := by
      rw [div_le_iff₀ (by norm_num)]
      have := mul_le_mul_of_nonneg_left (show (1 : Rat) ≤ 2 ^ 53 by norm_num) hv
      linarith
    linarith
  have hbv : 0 ≤ b * fl v := mul_nonneg hb h0
  have h2 := abs_le.1 (hfl.error (b * fl v))
  rw [abs_of_nonneg hbv] at h2
  have h3 : (1 - 1 / 2 ^ 53) * (b * v) ≤ b * fl v := by
    have := mul_le_mul_of_nonneg_left (show (1 - 1 / 2 ^ 53) * v ≤ fl v by linarith) hb
    linarith
  have h4 : b * fl v ≤ (1 + 1 / 2 ^ 53) * (b * v) := by
    have := mul_le_mul_of_nonneg_left (show fl v ≤ (1 + 1 / 2 ^ 53) * v by linarith) hb
    linarith
  refine ⟨?_, ?_, ?_⟩
  · linarith
  · have := mul_le_mul_of_nonneg_left h3 (show (0 : Rat) ≤ 1 - 1 / 2 ^ 53 by norm_num)
    nlinarith
  · have := mul_le_mul_of_nonneg_left h4 (show (0 : Rat) ≤ 1 + 1 / 2 ^ 53 by norm_num)
    nlinarith

/-- One entry. -/
theorem one_entry {fl : Rat → Rat} (hfl : Spec.RoundsAll fl) {s p s' p' : Rat} (hs : 0 ≤ s) (hp : 0 ≤ p)
    (hs0 : 0 ≤ s') (hs1 : (1 - 1 / 2 ^ 53) ^ 2 * s ≤ s') (hs2 : s' ≤ (1 + 1 / 2 ^ 53) ^ 2 * s)
    (hp0 : 0 ≤ p') (hp1 : (1 - 1 / 2 ^ 53) ^ 2 * p ≤ p') (hp2 : p' ≤ (1 + 1 / 2 ^ 53) ^ 2 * p) :
    0 ≤ fl (s' + p') ∧ |fl (s' + p') - (s + p)| ≤ growth * (s + p) := by
  have h2 := abs_le.1 (hfl.error (s' + p'))
  rw [abs_of_nonneg (by linarith)] at h2
  refine ⟨by linarith, ?_⟩
  rw [growth, abs_le]
  norm_num at *
  constructor <;> linarith

section

variable {fl : Rat → Rat} (hfl : Spec.RoundsAll fl) {A B D : Nat → Nat → Rat} {s0 : Rat} {j : Nat}
  (hA : ∀ r, r ≤ j → 0 ≤ A j r) (hB : ∀ r, r ≤ j → 0 ≤ B j r) (hD : ∀ r, r ≤ j → 0 < D j r)
  (hV : ∀ r, r ≤ j → 0 ≤ triR fl A B D s0 j r)

include hfl hA hB hD hV

/-- The entries of the next line. -/
theorem triR_next {r : Nat} (hr : r ≤ j + 1) : 0 ≤ triR fl A B D s0 (j + 1) r ∧
    |triR fl A B D s0 (j + 1) r - ((if r = 0 then 0 else B j (r - 1) * (triR fl A B D s0 j (r - 1) / D j (r - 1))) +
      (if r = j + 1 then 0 else A j r * (triR fl A B D s0 j r / D j r)))| ≤
      growth * ((if r = 0 then 0 else B j (r - 1) * (triR fl A B D s0 j (r - 1) / D j (r - 1))) +
      (if r = j + 1 then 0 else A j r * (triR fl A B D s0 j r / D j r))) := by
  have g0 : (0 : Rat) ≤ growth := by rw [growth]; norm_num
  have hVD : ∀ r, r ≤ j → 0 ≤ triR fl A B D s0 j r / D j r := fun r hr => div_nonneg (hV r hr) (hD r hr).le
  obtain ⟨S, hS⟩ : ∃ S, S = if r = 0 then 0 else fl (B j (r - 1) * fl (triR fl A B D s0 j (r - 1) / D j (r - 1))) := ⟨_, rfl⟩
  obtain ⟨s, hs⟩ : ∃ s, s = if r = 0 then 0 else B j (r - 1) * (triR fl A B D s0 j (r - 1) / D j (r - 1)) := ⟨_, rfl⟩
  have h1 : 0 ≤ s ∧ 0 ≤ S ∧ (1 - 1 / 2 ^ 53) ^ 2 * s ≤ S ∧ S ≤ (1 + 1 / 2 ^ 53) ^ 2 * s := by
    rw [hS, hs]
    by_cases c : r = 0
    · simp [c]
    · rw [if_neg c, if_neg c]
      exact ⟨mul_nonneg (hB _ (by omega)) (hVD _ (by omega)), two_ops hfl (hB _ (by omega)) (hVD _ (by omega))⟩
  rw [triR, ← hS, ← hs]
  by_cases c : r = j + 1
  · rw [if_pos c, if_pos c, add_zero]
    refine ⟨h1.2.1, ?_⟩
    have hs0 := h1.1
    have a1 := h1.2.2.1
    have a2 := h1.2.2.2
    rw [growth, abs_le]
    norm_num at *
    constructor <;> linarith
  · rw [if_neg c, if_neg c]
    have h2 := two_ops hfl (hA r (by omega)) (hVD r (by omega))
    exact one_entry hfl h1.1 (mul_nonneg (hA r (by omega)) (hVD r (by omega))) h1.2.1 h1.2.2.1 h1.2.2.2 h2.1 h2.2.1 h2.2.2

/-- The sum of the next line. -/
theorem triR_sum {κ : Rat} (hκ : ∀ r, r ≤ j → |(A j r + B j r) / D j r - 1| ≤ κ) :
    |∑ r ∈ range (j + 2), triR fl A B D s0 (j + 1) r - ∑ r ∈ range (j + 1), triR fl A B D s0 j r| ≤
      (κ + growth * (1 + κ)) * ∑ r ∈ range (j + 1), triR fl A B D s0 j r := by
  have g0 : (0 : Rat) ≤ growth := by rw [growth]; norm_num
  have h1 : |∑ r ∈ range (j + 2), triR fl A B D s0 (j + 1) r -
      ∑ r ∈ range (j + 1), (B j r * (triR fl A B D s0 j r / D j r) + A j r * (triR fl A B D s0 j r / D j r))| ≤
      growth * ∑ r ∈ range (j + 1), (B j r * (triR fl A B D s0 j r / D j r) + A j r * (triR fl A B D s0 j r / D j r)) := by
    rw [← sum_line (fun r => B j r * (triR fl A B D s0 j r / D j r)) (fun r => A j r * (triR fl A B D s0 j r / D j r)) j,
      ← sum_sub_distrib, mul_sum]
    refine (abs_sum_le_sum_abs _ _).trans (sum_le_sum fun r hr => ?_)
    exact (triR_next hfl hA hB hD hV (by rw [mem_range] at hr; omega)).2
  have h2 : |∑ r ∈ range (j + 1), (B j r * (triR fl A B D s0 j r / D j r) + A j r * (triR fl A B D s0 j r / D j r)) -
      ∑ r ∈ range (j + 1), triR fl A B D s0 j r| ≤ κ * ∑ r ∈ range (j + 1), triR fl A B D s0 j r := by
    rw [← sum_sub_distrib, mul_sum]
    refine (abs_sum_le_sum_abs _ _).trans (sum_le_sum fun r hr => ?_)
    rw [mem_range] at hr
    have e : B j r * (triR fl A B D s0 j r / D j r) + A j r * (triR fl A B D s0 j r / D j r) - triR fl A B D s0 j r =
        ((A j r + B j r) / D j r - 1) * triR fl A B D s0 j r := by
      have := (hD r (by omega)).ne'
      field_simp
      ring
    rw [e, abs_mul, abs_of_nonneg (hV r (by omega))]
    exact mul_le_mul_of_nonneg_right (hκ r (by omega)) (hV r (by omega))
  generalize ∑ r ∈ range (j + 2), triR fl A B D s0 (j + 1) r = W at h1 ⊢
  generalize ∑ r ∈ range (j + 1), (B j r * (triR fl A B D s0 j r / D j r) + A j r * (triR fl A B D s0 j r / D j r)) = Q at h1 h2
  generalize ∑ r ∈ range (j + 1), triR fl A B D s0 j r = V at h2 ⊢
  have h3 : Q ≤ (1 + κ) * V := by have := (abs_le.1 h2).2; linarith
  have h4 := mul_le_mul_of_nonneg_left h3 g0
  calc |W - V| = |(W - Q) + (Q - V)| := by congr 1; ring
    _ ≤ |W - Q| + |Q - V| := abs_add_le _ _
    _ ≤ growth * ((1 + κ) * V) + κ * V := add_le_add (h1.trans h4) h2
    _ = _ := by ring

/-- The error of the next line. -/
theorem triR_error {L R : Nat → Nat → Rat} (hL : ∀ r, r ≤ j → 0 ≤ L j r) (hR : ∀ r, r ≤ j → 0 ≤ R j r)
    (hLR : ∀ r, r ≤ j → L j r + R j r = 1) {η : Rat}
    (hη : ∀ r, r ≤ j → |B j r / D j r - L j r| + |A j r / D j r - R j r| ≤ η) :
    ∑ r ∈ range (j + 2), |triR fl A B D s0 (j + 1) r - tri L R s0 (j + 1) r| ≤
      ∑ r ∈ range (j + 1), |triR fl A B D s0 j r - tri L R s0 j r| +
        (η + growth * (1 + η)) * ∑ r ∈ range (j + 1), triR fl A B D s0 j r := by
  have g0 : (0 : Rat) ≤ growth := by rw [growth]; norm_num
  have key : ∀ r, r ∈ range (j + 2) → |triR fl A B D s0 (j + 1) r - tri L R s0 (j + 1) r| ≤
      (if r = 0 then 0 else (fun r => growth * (B j r * (triR fl A B D s0 j r / D j r)) +
        (|B j r / D j r - L j r| * triR fl A B D s0 j r + L j r * |triR fl A B D s0 j r - tri L R s0 j r|)) (r - 1)) +
      (if r = j + 1 then 0 else (fun r => growth * (A j r * (triR fl A B D s0 j r / D j r)) +
        (|A j r / D j r - R j r| * triR fl A B D s0 j r + R j r * |triR fl A B D s0 j r - tri L R s0 j r|)) r) := by
    intro r hr
    rw [mem_range] at hr
    have h1 := (triR_next hfl hA hB hD hV (r := r) (by omega)).2
    have part : ∀ a d l v w : Rat, 0 ≤ l → 0 ≤ v → |a * (v / d) - l * w| ≤ |a / d - l| * v + l * |v - w| := by
      intro a d l v w hl hv
      calc |a * (v / d) - l * w| = |(a / d - l) * v + l * (v - w)| := by congr 1; ring
        _ ≤ |(a / d - l) * v| + |l * (v - w)| := abs_add_le _ _
        _ = _ := by rw [abs_mul, abs_mul, abs_of_nonneg hv, abs_of_nonneg hl]
    rw [tri]
    generalize triR fl A B D s0 (j + 1) r = W at h1 ⊢
    have h2 : |(if r = 0 then 0 else B j (r - 1) * (triR fl A B D s0 j (r - 1) / D j (r - 1))) -
        (if r = 0 then 0 else L j (r - 1) * tri L R s0 j (r - 1))| ≤ if r = 0 then 0 else
        |B j (r - 1) / D j (r - 1) - L j (r - 1)| * triR fl A B D s0 j (r - 1) +
          L j (r - 1) * |triR fl A B D s0 j (r - 1) - tri L R s0 j (r - 1)| := by
      by_cases c : r = 0
      · simp [c]
      · rw [if_neg c, if_neg c, if_neg c]
        exact part _ _ _ _ _ (hL _ (by omega)) (hV _ (by omega))
    have h3 : |(if r = j + 1 then 0 else A j r * (triR fl A B D s0 j r / D j r)) -
        (if r = j + 1 then 0 else R j r * tri L R s0 j r)| ≤ if r = j + 1 then 0 else
        |A j r / D j r - R j r| * triR fl A B D s0 j r + R j r * |triR fl A B D s0 j r - tri L R s0 j r| := by
      by_cases c : r = j + 1
      · simp [c]
      · rw [if_neg c, if_neg c, if_neg c]
        exact part _ _ _ _ _ (hR _ (by omega)) (hV _ (by omega))
    have h4 : ∀ (P : Prop) [Decidable P] (x y : Rat), (if P then 0 else x + y) = (if P then 0 else x) + (if P then 0 else y) := by
      intro P _ x y; split_ifs <;> simp
    have h5 : ∀ (P : Prop) [Decidable P] (x y : Rat), (if P then 0 else x * y) = x * (if P then 0 else y) := by
      intro P _ x y; split_ifs <;> simp
    dsimp only
    rw [h4 (r = 0), h4 (r = j + 1), h5 (r = 0) growth, h5 (r = j + 1) growth]
    generalize (if r = 0 then 0 else B j (r - 1) * (triR fl A B D s0 j (r - 1) / D j (r - 1))) = b1 at h1 h2 ⊢
    generalize (if r = j + 1 then 0 else A j r * (triR fl A B D s0 j r / D j r)) = a1 at h1 h3 ⊢
    generalize (if r = 0 then 0 else L j (r - 1) * tri L R s0 j (r - 1)) = b2 at h2 ⊢
    generalize (if r = j + 1 then 0 else R j r * tri L R s0 j r) = a2 at h3 ⊢
    calc |W - (b2 + a2)| = |(W - (b1 + a1)) + ((b1 - b2) + (a1 - a2))| := by congr 1; ring
      _ ≤ |W - (b1 + a1)| + (|b1 - b2| + |a1 - a2|) := (abs_add_le _ _).trans (add_le_add_right (abs_add_le _ _) _)
      _ ≤ growth * (b1 + a1) + (_ + _) := add_le_add h1 (add_le_add h2 h3)
      _ = _ := by ring
  refine ((sum_le_sum key).trans_eq (sum_line (fun r => growth * (B j r * (triR fl A B D s0 j r / D j r)) +
        (|B j r / D j r - L j r| * triR fl A B D s0 j r + L j r * |triR fl A B D s0 j r - tri L R s0 j r|))
      (fun r => growth * (A j r * (triR fl A B D s0 j r / D j r)) +
        (|A j r / D j r - R j r| * triR fl A B D s0 j r + R j r * |triR fl A B D s0 j r - tri L R s0 j r|)) j)).trans ?_
  rw [mul_sum, ← sum_add_distrib]
  refine sum_le_sum fun r hr => ?_
  rw [mem_range] at hr
  have hr' : r ≤ j := by omega
  have e1 := hη r hr'
  have e2 := hLR r hr'
  have v0 := hV r hr'
  have hsum : (A j r + B j r) / D j r ≤ 1 + η := by
    have a1 := le_abs_self (B j r / D j r - L j r)
    have a2 := le_abs_self (A j r / D j r - R j r)
    rw [add_div]
    linarith
  have e3 : growth * (B j r * (triR fl A B D s0 j r / D j r)) + growth * (A j r * (triR fl A B D s0 j r / D j r)) ≤
      growth * (1 + η) * triR fl A B D s0 j r := by
    have h1 := mul_le_mul_of_nonneg_right hsum v0
    have h2 := mul_le_mul_of_nonneg_left h1 g0
    calc _ = growth * ((A j r + B j r) / D j r * triR fl A B D s0 j r) := by ring
      _ ≤ _ := h2
      _ = _ := by ring
  have e4 : |B j r / D j r - L j r| * triR fl A B D s0 j r + |A j r / D j r - R j r| * triR fl A B D s0 j r ≤
      η * triR fl A B D s0 j r := by
    rw [← add_mul]
    exact mul_le_mul_of_nonneg_right e1 v0
  have e5 : L j r * |triR fl A B D s0 j r - tri L R s0 j r| + R j r * |triR fl A B D s0 j r - tri L R s0 j r| =
      |triR fl A B D s0 j r - tri L R s0 j r| := by rw [← add_mul, e2, one_mul]
  linarith

end

/-- Exact lines: the sum is one, and a change of the coefficients changes them little. -/
theorem tri_perturb {L R L' R' : Nat → Nat → Rat} {s0 : Rat} {j : Nat} (hL : ∀ r, r ≤ j → 0 ≤ L j r)
    (hR : ∀ r, r ≤ j → 0 ≤ R j r) (hLR : ∀ r, r ≤ j → L j r + R j r = 1) {η : Rat}
    (hη : ∀ r, r ≤ j → |L' j r - L j r| + |R' j r - R j r| ≤ η)
    (hV : ∀ r, r ≤ j → 0 ≤ tri L' R' s0 j r) :
    ∑ r ∈ range (j + 2), |tri L' R' s0 (j + 1) r - tri L R s0 (j + 1) r| ≤
      ∑ r ∈ range (j + 1), |tri L' R' s0 j r - tri L R s0 j r| + η * ∑ r ∈ range (j + 1), tri L' R' s0 j r := by
  have part : ∀ l l' v w : Rat, 0 ≤ l → 0 ≤ v → |l' * v - l * w| ≤ |l' - l| * v + l * |v - w| := by
    intro l l' v w hl hv
    calc |l' * v - l * w| = |(l' - l) * v + l * (v - w)| := by congr 1; ring
      _ ≤ |(l' - l) * v| + |l * (v - w)| := abs_add_le _ _
      _ = _ := by rw [abs_mul, abs_mul, abs_of_nonneg hv, abs_of_nonneg hl]
  have key : ∀ r, r ∈ range (j + 2) → |tri L' R' s0 (j + 1) r - tri L R s0 (j + 1) r| ≤
      (if r = 0 then 0 else (fun r => |L' j r - L j r| * tri L' R' s0 j r + L j r * |tri L' R' s0 j r - tri L R s0 j r|)
        (r - 1)) +
      (if r = j + 1 then 0 else (fun r => |R' j r - R j r| * tri L' R' s0 j r +
        R j r * |tri L' R' s0 j r - tri L R s0 j r|) r) := by
    intro r hr
    rw [mem_range] at hr
    rw [tri, tri, add_sub_add_comm]
    refine (abs_add_le _ _).trans (add_le_add ?_ ?_)
    · by_cases c : r = 0
      · simp [c]
      · rw [if_neg c, if_neg c, if_neg c]
        exact part _ _ _ _ (hL _ (by omega)) (hV _ (by omega))
    · by_cases c : r = j + 1
      · simp [c]
      · rw [if_neg c, if_neg c, if_neg c]
        exact part _ _ _ _ (hR _ (by omega)) (hV _ (by omega))
  refine ((sum_le_sum key).trans_eq (sum_line
      (fun r => |L' j r - L j r| * tri L' R' s0 j r + L j r * |tri L' R' s0 j r - tri L R s0 j r|)
      (fun r => |R' j r - R j r| * tri L' R' s0 j r + R j r * |tri L' R' s0 j r - tri L R s0 j r|) j)).trans ?_
  rw [mul_sum, ← sum_add_distrib]
  refine sum_le_sum fun r hr => ?_
  rw [mem_range] at hr
  have e4 := mul_le_mul_of_nonneg_right (hη r (by omega)) (hV r (by omega))
  have e5 : L j r * |tri L' R' s0 j r - tri L R s0 j r| + R j r * |tri L' R' s0 j r - tri L R s0 j r| =
      |tri L' R' s0 j r - tri L R s0 j r| := by rw [← add_mul, hLR r (by omega), one_mul]
  linarith

/-- All lines: non-negative, of the same sum and accurate. -/
theorem triR_lines_from {fl : Rat → Rat} (hfl : Spec.RoundsAll fl) {A B D L R : Nat → Nat → Rat} {p : Nat} (hp : p ≤ 2 ^ 20)
    {s0 : Rat} (hs : 0 ≤ s0)
    (hA : ∀ j r, j < p → r ≤ j → 0 ≤ A j r) (hB : ∀ j r, j < p → r ≤ j → 0 ≤ B j r)
    (hD : ∀ j r, j < p → r ≤ j → 0 < D j r) (hL : ∀ j r, j < p → r ≤ j → 0 ≤ L j r)
    (hR : ∀ j r, j < p → r ≤ j → 0 ≤ R j r) (hLR : ∀ j r, j < p → r ≤ j → L j r + R j r = 1)
    (hκ : ∀ j r, j < p → r ≤ j → |(A j r + B j r) / D j r - 1| ≤ 2 / 2 ^ 53) {η : Nat → Rat}
    (hη : ∀ j r, j < p → r ≤ j → |B j r / D j r - L j r| + |A j r / D j r - R j r| ≤ η j)
    (hη1 : ∀ j, j < p → η j ≤ 1 / 100) :
    ∀ j, j ≤ p → (∀ r, r ≤ j → 0 ≤ triR fl A B D s0 j r) ∧
      |∑ r ∈ range (j + 1), triR fl A B D s0 j r - s0| ≤ 6 * j / 2 ^ 53 * s0 ∧
      ∑ r ∈ range (j + 1), |triR fl A B D s0 j r - tri L R s0 j r| ≤ 17 / 16 * (∑ i ∈ range j, (η i + 4 / 2 ^ 53)) * s0 := by
  intro j
  induction j with
  | zero => exact fun _ => ⟨fun r _ => hs, by simp [triR], by simp [triR, tri]⟩
  | succ j ih =>
    intro hj
    obtain ⟨h1, h2, h3⟩ := ih (by omega)
    have hj' : (j : Rat) * s0 ≤ 2 ^ 20 * s0 :=
      mul_le_mul_of_nonneg_right (by exact_mod_cast (show j ≤ 2 ^ 20 by omega)) hs
    have hj0 : (0 : Rat) ≤ j * s0 := mul_nonneg (Nat.cast_nonneg j) hs
    rw [show 6 * (j : Rat) / 2 ^ 53 * s0 = 6 / 2 ^ 53 * (j * s0) by ring] at h2
    have s1 := triR_sum hfl (fun r => hA j r (by omega)) (fun r => hB j r (by omega)) (fun r => hD j r (by omega)) h1 (fun r => hκ j r (by omega))
    have s2 := triR_error hfl (fun r => hA j r (by omega)) (fun r => hB j r (by omega)) (fun r => hD j r (by omega)) h1 (fun r => hL j r (by omega)) (fun r => hR j r (by omega)) (fun r => hLR j r (by omega))
      (fun r => hη j r (by omega))
    refine ⟨fun r hr => (triR_next hfl (fun r => hA j r (by omega)) (fun r => hB j r (by omega)) (fun r => hD j r (by omega)) h1 hr).1, ?_, ?_⟩
    · generalize ∑ r ∈ range (j + 1 + 1), triR fl A B D s0 (j + 1) r = W at *
      generalize ∑ r ∈ range (j + 1), triR fl A B D s0 j r = V at *
      have g : (2 / 2 ^ 53 + growth * (1 + 2 / 2 ^ 53) : Rat) ≤ 51 / 10 / 2 ^ 53 := by rw [growth]; norm_num
      have h2' := abs_le.1 h2
      have V0 : 0 ≤ V := by linarith
      have s1' := abs_le.1 (s1.trans (mul_le_mul_of_nonneg_right g V0))
      rw [show 6 * ((j + 1 : Nat) : Rat) / 2 ^ 53 * s0 = 6 / 2 ^ 53 * (j * s0) + 6 / 2 ^ 53 * s0 by push_cast; ring, abs_le]
      constructor <;> linarith
    · rw [sum_range_succ _ j, mul_add, add_mul]
      refine s2.trans (add_le_add h3 ?_)
      have hη0 : 0 ≤ η j := le_trans (add_nonneg (abs_nonneg _) (abs_nonneg _)) (hη j 0 (by omega) (by omega))
      have hη1 := hη1 j (by omega)
      generalize ∑ r ∈ range (j + 1), triR fl A B D s0 j r = V at *
      have h2' := abs_le.1 h2
      have V1 : V ≤ 17 / 16 * s0 := by linarith
      have V0 : 0 ≤ V := by linarith
      have g : growth * (1 + η j) ≤ 4 / 2 ^ 53 := by
        have : growth * (1 + η j) ≤ growth * (1 + 1 / 100) := mul_le_mul_of_nonneg_left (by linarith) (by rw [growth]; norm_num)
        refine this.trans ?_
        rw [growth]; norm_num
      have e : (η j + growth * (1 + η j)) * V ≤ (η j + 4 / 2 ^ 53) * (17 / 16 * s0) :=
        mul_le_mul (by linarith) V1 V0 (by positivity)
      linarith

/-- All lines, from one: non-negative, of sum one and accurate. -/
theorem triR_lines {fl : Rat → Rat} (hfl : Spec.RoundsAll fl) {A B D L R : Nat → Nat → Rat} {p : Nat} (hp : p ≤ 2 ^ 20)
    (hA : ∀ j r, j < p → r ≤ j → 0 ≤ A j r) (hB : ∀ j r, j < p → r ≤ j → 0 ≤ B j r)
    (hD : ∀ j r, j < p → r ≤ j → 0 < D j r) (hL : ∀ j r, j < p → r ≤ j → 0 ≤ L j r)
    (hR : ∀ j r, j < p → r ≤ j → 0 ≤ R j r) (hLR : ∀ j r, j < p → r ≤ j → L j r + R j r = 1)
    (hκ : ∀ j r, j < p → r ≤ j → |(A j r + B j r) / D j r - 1| ≤ 2 / 2 ^ 53) {η : Nat → Rat}
    (hη : ∀ j r, j < p → r ≤ j → |B j r / D j r - L j r| + |A j r / D j r - R j r| ≤ η j)
    (hη1 : ∀ j, j < p → η j ≤ 1 / 100) :
    ∀ j, j ≤ p → (∀ r, r ≤ j → 0 ≤ triR fl A B D 1 j r) ∧
      |∑ r ∈ range (j + 1), triR fl A B D 1 j r - 1| ≤ 6 * j / 2 ^ 53 ∧
      ∑ r ∈ range (j + 1), |triR fl A B D 1 j r - tri L R 1 j r| ≤ 17 / 16 * ∑ i ∈ range j, (η i + 4 / 2 ^ 53) := by
  intro j hj
  have := triR_lines_from hfl hp zero_le_one hA hB hD hL hR hLR hκ hη hη1 j hj
  rwa [mul_one, mul_one] at this

/-- The same without rounding. -/
theorem tri_lines {L R L' R' : Nat → Nat → Rat} {p : Nat} (hL : ∀ j r, j < p → r ≤ j → 0 ≤ L j r)
    (hR : ∀ j r, j < p → r ≤ j → 0 ≤ R j r) (hLR : ∀ j r, j < p → r ≤ j → L j r + R j r = 1)
    (hL' : ∀ j r, j < p → r ≤ j → 0 ≤ L' j r) (hR' : ∀ j r, j < p → r ≤ j → 0 ≤ R' j r)
    (hLR' : ∀ j r, j < p → r ≤ j → L' j r + R' j r = 1) {η : Nat → Rat}
    (hη : ∀ j r, j < p → r ≤ j → |L' j r - L j r| + |R' j r - R j r| ≤ η j) :
    ∀ j, j ≤ p → (∀ r, r ≤ j → 0 ≤ tri L' R' 1 j r) ∧ ∑ r ∈ range (j + 1), tri L' R' 1 j r = 1 ∧
      ∑ r ∈ range (j + 1), |tri L' R' 1 j r - tri L R 1 j r| ≤ ∑ i ∈ range j, η i := by
  intro j
  induction j with
  | zero => exact fun _ => ⟨fun r _ => zero_le_one, by simp [tri], by simp [tri]⟩
  | succ j ih =>
    intro hj
    obtain ⟨h1, h2, h3⟩ := ih (by omega)
    refine ⟨fun r hr => ?_, ?_, ?_⟩
    · rw [tri]
      refine add_nonneg ?_ ?_
      · split_ifs
        · exact le_rfl
        · exact mul_nonneg (hL' _ _ (by omega) (by omega)) (h1 _ (by omega))
      · split_ifs
        · exact le_rfl
        · exact mul_nonneg (hR' _ _ (by omega) (by omega)) (h1 _ (by omega))
    · simp only [tri]
      rw [sum_line (fun r => L' j r * tri L' R' 1 j r) (fun r => R' j r * tri L' R' 1 j r) j]
      refine Eq.trans (sum_congr rfl fun r hr => by
        rw [mem_range] at hr
        rw [← add_mul, hLR' _ _ (by omega) (by omega), one_mul]) h2
    · rw [sum_range_succ _ j]
      have := tri_perturb (s0 := 1) (fun r => hL j r (by omega)) (fun r => hR j r (by omega)) (fun r => hLR j r (by omega)) (fun r => hη j r (by omega)) h1
      rw [h2, mul_one] at this
      linarith

/-- A product of two terms with small relative errors. -/
theorem mul_rel {a l v w κ : Rat} (hl : 0 ≤ l) (hw : 0 ≤ w) (hκ : 0 ≤ κ) (h1 : |a - l| ≤ 4 / 2 ^ 53 * l) (h2 : |v - w| ≤ κ * w) :
    |a * v - l * w| ≤ (κ + 4 / 2 ^ 53 * (1 + κ)) * (l * w) := by
  have hv : |v| ≤ (1 + κ) * w := by
    have := abs_add_le (v - w) w
    rw [sub_add_cancel, abs_of_nonneg hw] at this
    linarith
  calc |a * v - l * w| = |(a - l) * v + l * (v - w)| := by congr 1; ring
    _ ≤ |a - l| * |v| + l * |v - w| := by
        refine (abs_add_le _ _).trans_eq ?_
        rw [abs_mul, abs_mul, abs_of_nonneg hl]
    _ ≤ 4 / 2 ^ 53 * l * ((1 + κ) * w) + l * (κ * w) :=
        add_le_add (mul_le_mul h1 hv (abs_nonneg _) (mul_nonneg (by norm_num) hl)) (mul_le_mul_of_nonneg_left h2 hl)
    _ = _ := by ring

/-- All lines have small relative errors, when the coefficients have. -/
theorem triR_rel {fl : Rat → Rat} (hfl : Spec.RoundsAll fl) {A B D L R : Nat → Nat → Rat} {p : Nat} (hp : p ≤ 2 ^ 20)
    (hA : ∀ j r, j < p → r ≤ j → 0 ≤ A j r) (hB : ∀ j r, j < p → r ≤ j → 0 ≤ B j r)
    (hD : ∀ j r, j < p → r ≤ j → 0 < D j r) (hL : ∀ j r, j < p → r ≤ j → 0 ≤ L j r)
    (hR : ∀ j r, j < p → r ≤ j → 0 ≤ R j r)
    (hBL : ∀ j r, j < p → r ≤ j → |B j r / D j r - L j r| ≤ 4 / 2 ^ 53 * L j r)
    (hAR : ∀ j r, j < p → r ≤ j → |A j r / D j r - R j r| ≤ 4 / 2 ^ 53 * R j r) :
    ∀ j, j ≤ p → ∀ r, r ≤ j → 0 ≤ triR fl A B D 1 j r ∧ 0 ≤ tri L R 1 j r ∧
      |triR fl A B D 1 j r - tri L R 1 j r| ≤ 8 * j / 2 ^ 53 * tri L R 1 j r := by
  intro j
  induction j with
  | zero => exact fun _ r _ => ⟨zero_le_one, zero_le_one, by simp [triR, tri]⟩
  | succ j ih =>
    intro hj r hr
    have ih := ih (by omega)
    have hj' : (j : Rat) ≤ 1048576 := by exact_mod_cast (show j ≤ 1048576 by omega)
    have hj0 : (0 : Rat) ≤ j := Nat.cast_nonneg j
    obtain ⟨h1, h2⟩ := triR_next hfl (fun r => hA j r (by omega)) (fun r => hB j r (by omega)) (fun r => hD j r (by omega))
      (fun r hr => (ih r hr).1) hr
    refine ⟨h1, ?_⟩
    obtain ⟨κ, hκ⟩ : ∃ κ : Rat, κ = 8 * j / 2 ^ 53 := ⟨_, rfl⟩
    have κ0 : 0 ≤ κ := by rw [hκ]; positivity
    have κ1 : κ ≤ 1 / 2 ^ 30 := by rw [hκ]; norm_num; linarith
    rw [← hκ] at ih
    have k1 : 0 ≤ (if r = 0 then 0 else L j (r - 1) * tri L R 1 j (r - 1)) ∧
        |(if r = 0 then 0 else B j (r - 1) * (triR fl A B D 1 j (r - 1) / D j (r - 1))) -
          (if r = 0 then 0 else L j (r - 1) * tri L R 1 j (r - 1))| ≤
          (κ + 4 / 2 ^ 53 * (1 + κ)) * (if r = 0 then 0 else L j (r - 1) * tri L R 1 j (r - 1)) := by
      by_cases c : r = 0
      · simp [c]
      · rw [if_neg c, if_neg c, show B j (r - 1) * (triR fl A B D 1 j (r - 1) / D j (r - 1)) =
          B j (r - 1) / D j (r - 1) * triR fl A B D 1 j (r - 1) by ring]
        obtain ⟨-, a2, a3⟩ := ih (r - 1) (by omega)
        exact ⟨mul_nonneg (hL _ _ (by omega) (by omega)) a2,
          mul_rel (hL _ _ (by omega) (by omega)) a2 κ0 (hBL _ _ (by omega) (by omega)) a3⟩
    have k2 : 0 ≤ (if r = j + 1 then 0 else R j r * tri L R 1 j r) ∧
        |(if r = j + 1 then 0 else A j r * (triR fl A B D 1 j r / D j r)) -
          (if r = j + 1 then 0 else R j r * tri L R 1 j r)| ≤
          (κ + 4 / 2 ^ 53 * (1 + κ)) * (if r = j + 1 then 0 else R j r * tri L R 1 j r) := by
      by_cases c : r = j + 1
      · simp [c]
      · rw [if_neg c, if_neg c, show A j r * (triR fl A B D 1 j r / D j r) = A j r / D j r * triR fl A B D 1 j r by ring]
        obtain ⟨-, a2, a3⟩ := ih r (by omega)
        exact ⟨mul_nonneg (hR _ _ (by omega) (by omega)) a2,
          mul_rel (hR _ _ (by omega) (by omega)) a2 κ0 (hAR _ _ (by omega) (by omega)) a3⟩
    rw [tri]
    generalize triR fl A B D 1 (j + 1) r = W at h2 ⊢
    generalize (if r = 0 then 0 else B j (r - 1) * (triR fl A B D 1 j (r - 1) / D j (r - 1))) = b1 at h2 k1
    generalize (if r = j + 1 then 0 else A j r * (triR fl A B D 1 j r / D j r)) = a1 at h2 k2
    generalize (if r = 0 then 0 else L j (r - 1) * tri L R 1 j (r - 1)) = b2 at k1 ⊢
    generalize (if r = j + 1 then 0 else R j r * tri L R 1 j r) = a2 at k2 ⊢
    refine ⟨add_nonneg k1.1 k2.1, ?_⟩
    obtain ⟨μ, hμ⟩ : ∃ μ, μ = κ + 4 / 2 ^ 53 * (1 + κ) := ⟨_, rfl⟩
    rw [← hμ] at k1 k2
    have μ1 : growth * (1 + μ) + μ ≤ 8 * ((j + 1 : Nat) : Rat) / 2 ^ 53 := by
      have : 8 * ((j + 1 : Nat) : Rat) / 2 ^ 53 = κ + 8 / 2 ^ 53 := by rw [hκ]; push_cast; ring
      rw [this, hμ, growth]
      norm_num at κ1 ⊢
      linarith
    have g0 : (0 : Rat) ≤ growth := by rw [growth]; norm_num
    have s0 := add_nonneg k1.1 k2.1
    have m1 : |(b1 + a1) - (b2 + a2)| ≤ μ * (b2 + a2) := by
      rw [add_sub_add_comm, mul_add]
      exact (abs_add_le _ _).trans (add_le_add k1.2 k2.2)
    have m2 := (abs_le.1 m1).2
    have m3 := mul_le_mul_of_nonneg_left (show b1 + a1 ≤ (1 + μ) * (b2 + a2) by linarith) g0
    calc |W - (b2 + a2)| ≤ |W - (b1 + a1)| + |(b1 + a1) - (b2 + a2)| := abs_sub_le _ _ _
      _ ≤ growth * ((1 + μ) * (b2 + a2)) + μ * (b2 + a2) := add_le_add (h2.trans m3) m1
      _ = (growth * (1 + μ) + μ) * (b2 + a2) := by ring
      _ ≤ _ := mul_le_mul_of_nonneg_right μ1 s0

end DDC
