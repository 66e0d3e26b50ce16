import Verif.Lemmas.BSpline
import Mathlib.Algebra.BigOperators.Intervals
import Mathlib.Tactic.Abel

/-!
# Partial sums of B-splines

`cum t c q i` is the sum of the polynomial pieces on the interval `c` of the B-splines of degree `q` with
an index at least `i`.  It is an antiderivative of the piece of the B-spline `i` of degree `q - 1`, up to a
factor.
-/

namespace DDC.Spec

set_option linter.unusedSectionVars false

open Polynomial

variable {K : Type} [Field K] [LinearOrder K]

/-- `(X - t_i) / (t_{i+q+1} - t_i)`. -/
noncomputable def omega (t : Nat → K) (q i : Nat) : K[X] := C (1 / (t (i + q + 1) - t i)) * (X - C (t i))

theorem omega_eval (t : Nat → K) (q i : Nat) (x : K) :
    (omega t q i).eval x = (x - t i) / (t (i + q + 1) - t i) := by
  simp [omega]; ring

/-- Partial sums of the B-splines of degree `q` on the interval `c`. -/
noncomputable def cum (t : Nat → K) (c : Nat) : Nat → Nat → K[X]
  | 0, i => if i ≤ c then 1 else 0
  | q + 1, i => omega t q i * cum t c q i + (1 - omega t q i) * cum t c q (i + 1)

theorem cum_zero (t : Nat → K) (c q i : Nat) (h : c < i) : cum t c q i = 0 := by
  induction q generalizing i with
  | zero => rw [cum, if_neg (by omega)]
  | succ q ih => rw [cum, ih i h, ih (i + 1) (by omega)]; simp

theorem cum_one (t : Nat → K) (c q i : Nat) (h : i + q ≤ c) : cum t c q i = 1 := by
  induction q generalizing i with
  | zero => rw [cum, if_pos (by omega)]
  | succ q ih => rw [cum, ih i (by omega), ih (i + 1) (by omega)]; ring

/-- The pieces are the differences of the partial sums. -/
theorem cum_sub {t : Nat → K} (ht : Monotone t) {c : Nat} (hc : t c < t (c + 1)) (q i : Nat) :
    cum t c q i - cum t c q (i + 1) = piece t c q i := by
  induction q generalizing i with
  | zero =>
    rw [cum, cum, piece]
    rcases lt_trichotomy i c with h | h | h
    · rw [if_pos (by omega), if_pos (by omega), if_neg (by omega), sub_self]
    · rw [if_pos (by omega), if_neg (by omega), if_pos h, sub_zero]
    · rw [if_neg (by omega), if_neg (by omega), if_neg (by omega), sub_self]
  | succ q ih =>
    rw [cum, cum, piece]
    have e1 := ih i
    have e2 := ih (i + 1)
    have e3 : C (1 / (t (i + q + 2) - t (i + 1))) * (C (t (i + q + 2)) - X) * piece t c q (i + 1) =
        (1 - omega t q (i + 1)) * piece t c q (i + 1) := by
      by_cases hz : piece t c q (i + 1) = 0
      · rw [hz]; simp
      · have hne : t (i + q + 2) - t (i + 1) ≠ 0 := by
          have : ¬ (c < i + 1 ∨ i + 1 + q < c) := fun h => hz (piece_zero t c q (i + 1) h)
          have h1 := ht (show i + 1 ≤ c by omega)
          have h2 := ht (show c + 1 ≤ i + q + 2 by omega)
          exact sub_ne_zero.2 (ne_of_gt (lt_of_le_of_lt h1 (lt_of_lt_of_le hc h2)))
        congr 1
        rw [omega, show i + 1 + q + 1 = i + q + 2 by omega]
        have : (1 : K[X]) = C (1 / (t (i + q + 2) - t (i + 1))) *
            (C (t (i + q + 2)) - C (t (i + 1))) := by
          rw [← C_sub, ← C_mul, one_div_mul_cancel hne, C_1]
        rw [this]; ring
    have e4 : C (1 / (t (i + q + 1) - t i)) * (X - C (t i)) * piece t c q i =
        omega t q i * piece t c q i := rfl
    rw [e3, e4, ← e1, ← e2]
    ring

/-- The derivatives of the partial sums. -/
theorem derivative_cum {t : Nat → K} (ht : Monotone t) {c : Nat} (hc : t c < t (c + 1)) (q i : Nat) :
    derivative (cum t c (q + 1) i) =
      C ((q + 1 : Nat) : K) * (C (1 / (t (i + q + 1) - t i)) * piece t c q i) := by
  -- downwards from `i > c`
  have key : ∀ k i, c < i + k → derivative (cum t c (q + 1) i) =
      C ((q + 1 : Nat) : K) * (C (1 / (t (i + q + 1) - t i)) * piece t c q i) := by
    intro k
    induction k with
    | zero =>
      intro i hi
      rw [cum_zero t c (q + 1) i (by omega), piece_zero t c q i (Or.inl (by omega))]
      simp
    | succ k ih =>
      intro i hi
      have e1 := congrArg derivative (cum_sub ht hc (q + 1) i)
      rw [derivative_sub, ih (i + 1) (by omega), derivative_piece ht] at e1
      have e2 : i + 1 + q + 1 = i + q + 2 := by omega
      rw [e2] at e1
      linear_combination e1
  exact key (c + 1) i (by omega)

/-- The value at the common end of two consecutive intervals, the first of which is `c` and the second
`c'` (the intervals between them being empty). -/
theorem cum_jump {t : Nat → K} (ht : Monotone t) {c c' : Nat} (hcc : c < c') (hc : t c < t (c + 1))
    (hmid : t (c + 1) = t c') (q i : Nat) :
    (cum t c q i).eval (t c') - (cum t c' q i).eval (t c') =
      if c < i ∧ i + q ≤ c' then -1 else 0 := by
  induction q generalizing i with
  | zero =>
    rw [cum, cum]
    by_cases h1 : i ≤ c
    · rw [if_pos h1, if_pos (by omega), if_neg (by omega)]; simp
    · by_cases h2 : i ≤ c'
      · rw [if_neg h1, if_pos h2, if_pos (by omega)]; simp
      · rw [if_neg h1, if_neg h2, if_neg (by omega)]; simp
  | succ q ih =>
    have hmid' : ∀ j, c < j → j ≤ c' → t j = t c' := fun j h1 h2 =>
      le_antisymm (ht h2) (hmid ▸ ht (show c + 1 ≤ j by omega))
    have e : (cum t c (q + 1) i).eval (t c') - (cum t c' (q + 1) i).eval (t c') =
        (omega t q i).eval (t c') * (if c < i ∧ i + q ≤ c' then -1 else 0) +
        (1 - (omega t q i).eval (t c')) * (if c < i + 1 ∧ i + 1 + q ≤ c' then -1 else 0) := by
      rw [← ih i, ← ih (i + 1), cum, cum]
      simp only [eval_add, eval_mul, eval_sub, eval_one]
      ring
    rw [e, omega_eval]
    by_cases h1 : c < i ∧ i + (q + 1) ≤ c'
    · rw [if_pos h1, if_pos (by omega), if_pos (by omega)]; ring
    · rw [if_neg h1]
      by_cases h2 : c < i ∧ i + q ≤ c'
      · rw [if_pos h2, if_neg (by omega), hmid' i h2.1 (by omega)]; simp
      · rw [if_neg h2]
        by_cases h3 : c < i + 1 ∧ i + 1 + q ≤ c'
        · obtain rfl : i = c := by omega
          rw [if_pos h3, hmid' (i + q + 1) (by omega) (by omega)]
          have : t c' - t i ≠ 0 := sub_ne_zero.2 (ne_of_gt (hmid ▸ hc))
          rw [div_self this]; ring
        · rw [if_neg h3]; ring

/-- Translation of the knots. -/
theorem cum_shift {t t' : Nat → K} {n : Nat} {s : K} (c q i : Nat)
    (h : ∀ k, i ≤ k → k ≤ i + q → t' (k + n) = t k + s) (x : K) :
    (cum t' (c + n) q (i + n)).eval (x + s) = (cum t c q i).eval x := by
  induction q generalizing i with
  | zero =>
    rw [cum, cum]
    by_cases h1 : i ≤ c
    · rw [if_pos h1, if_pos (by omega)]; simp
    · rw [if_neg h1, if_neg (by omega)]; simp
  | succ q ih =>
    have e1 := ih i (fun k h1 h2 => h k h1 (by omega))
    have e2 := ih (i + 1) (fun k h1 h2 => h k (by omega) (by omega))
    rw [cum, cum]
    simp only [eval_add, eval_mul, eval_sub, eval_one, omega_eval]
    have e3 : t' (i + n + q + 1) = t (i + q + 1) + s := by
      rw [← h (i + q + 1) (by omega) (by omega)]; congr 1; omega
    have e4 : t' (i + n) = t i + s := h i (le_refl _) (by omega)
    rw [e1, show i + n + 1 = i + 1 + n by omega, e2, e3, e4,
      show x + s - (t i + s) = x - t i by ring,
      show t (i + q + 1) + s - (t i + s) = t (i + q + 1) - t i by ring]

/-- Values at the left end of an interval. -/
theorem cum_left {t : Nat → K} {c : Nat} (q i : Nat) (h : c ≤ i ∧ 0 < q) : (cum t c q i).eval (t c) = 0 := by
  obtain ⟨q, rfl⟩ : ∃ k, q = k + 1 := ⟨q - 1, by omega⟩
  rw [cum, cum_zero t c q (i + 1) (by omega)]
  simp only [eval_mul, omega_eval, mul_zero, add_zero]
  rcases Nat.lt_or_eq_of_le h.1 with h1 | rfl
  · rw [cum_zero t c q i h1]; simp
  · rw [sub_self, zero_div, zero_mul]

/-- Values at the left end of an interval all the knots before which are equal. -/
theorem cum_left_clamped {t : Nat → K} {c : Nat} (hcl : ∀ k, k ≤ c → t k = t c) (q i : Nat) (h : c < i + q) :
    (cum t c q i).eval (t c) = 0 := by
  induction q generalizing i with
  | zero => rw [cum_zero t c 0 i (by omega)]; simp
  | succ q ih =>
    by_cases hi : c < i
    · rw [cum_zero t c _ i hi]; simp
    · rw [cum]
      simp only [eval_add, eval_mul, omega_eval, eval_sub, eval_one]
      rw [hcl i (by omega), sub_self, zero_div, ih (i + 1) (by omega)]
      ring

/-- Values at the right end of an interval. -/
theorem cum_right {t : Nat → K} {c : Nat} (q i : Nat)
    (hlt : t i < t (c + 1)) (h : i + q ≤ c + 1) (hq : i ≤ c) :
    (cum t c q i).eval (t (c + 1)) = 1 := by
  rcases Nat.lt_or_eq_of_le h with h1 | h1
  · rw [cum_one t c q i (by omega)]; simp
  · obtain ⟨q, rfl⟩ : ∃ k, q = k + 1 := ⟨q - 1, by omega⟩
    rw [cum, cum_one t c q i (by omega)]
    simp only [eval_add, eval_mul, omega_eval, eval_sub, eval_one]
    rw [show i + q + 1 = c + 1 by omega, div_self (sub_ne_zero.2 (ne_of_gt hlt))]
    ring

/-- Values at the right end of an interval all the knots after which are equal. -/
theorem cum_right_clamped {t : Nat → K} {c : Nat} (hc : t c < t (c + 1)) (N : Nat)
    (hcl : ∀ k, c + 1 ≤ k → k ≤ c + N → t k = t (c + 1)) (q i : Nat) (hq : q ≤ N) (h : i ≤ c) :
    (cum t c q i).eval (t (c + 1)) = 1 := by
  induction q generalizing i with
  | zero => rw [cum, if_pos h]; simp
  | succ q ih =>
    rw [cum]
    simp only [eval_add, eval_mul, omega_eval, eval_sub, eval_one]
    rw [ih i (by omega) h]
    rcases Nat.lt_or_eq_of_le h with h1 | rfl
    · rw [ih (i + 1) (by omega) h1]; ring
    · rw [hcl (i + q + 1) (by omega) (by omega), div_self (sub_ne_zero.2 (ne_of_gt hc))]
      ring

/-! ## The integral over several intervals -/

/-- Antiderivative of the piece of the B-spline `i` of degree `p` on the interval `c`. -/
noncomputable def prim (t : Nat → K) (p i c : Nat) : K[X] :=
  C ((t (i + p + 1) - t i) / ((p + 1 : Nat) : K)) * cum t c (p + 1) i

theorem derivative_prim [CharZero K] {t : Nat → K} (ht : Monotone t) {c : Nat} (hc : t c < t (c + 1)) (p i : Nat) :
    derivative (prim t p i c) = piece t c p i := by
  rw [prim, derivative_C_mul, derivative_cum ht hc]
  by_cases hz : piece t c p i = 0
  · rw [hz]; simp
  · have hne : t (i + p + 1) - t i ≠ 0 := by
      have : ¬ (c < i ∨ i + p < c) := fun h => hz (piece_zero t c p i h)
      have h1 := ht (show i ≤ c by omega)
      have h2 := ht (show c + 1 ≤ i + p + 1 by omega)
      exact sub_ne_zero.2 (ne_of_gt (lt_of_le_of_lt h1 (lt_of_lt_of_le hc h2)))
    have hp : ((p + 1 : Nat) : K) ≠ 0 := by exact_mod_cast Nat.succ_ne_zero p
    rw [← mul_assoc, ← mul_assoc, ← C_mul, ← C_mul]
    have : (t (i + p + 1) - t i) / ((p + 1 : Nat) : K) * ((p + 1 : Nat) : K) *
        (1 / (t (i + p + 1) - t i)) = 1 := by field_simp
    rw [this, C_1, one_mul]

/-- The antiderivatives agree at the common end of two consecutive intervals. -/
theorem prim_jump {t : Nat → K} (ht : Monotone t) {c c' : Nat} (hcc : c < c') (hc : t c < t (c + 1))
    (hmid : t (c + 1) = t c') (p i : Nat) :
    (prim t p i c).eval (t c') = (prim t p i c').eval (t c') := by
  have h := cum_jump ht hcc hc hmid (p + 1) i
  rw [prim, prim]
  simp only [eval_mul, eval_C]
  by_cases hd : c < i ∧ i + (p + 1) ≤ c'
  · have h1 : t i = t c' := le_antisymm (ht (by omega)) (hmid ▸ ht (show c + 1 ≤ i by omega))
    have h2 : t (i + p + 1) = t c' :=
      le_antisymm (ht (by omega)) (hmid ▸ ht (show c + 1 ≤ i + p + 1 by omega))
    rw [h1, h2, sub_self, zero_div, zero_mul, zero_mul]
  · rw [if_neg hd] at h
    rw [sub_eq_zero.1 h]

/-- Telescoping. -/
theorem prim_sum {t : Nat → K} (ht : Monotone t) {lo : Nat} (hlo : t lo < t (lo + 1)) (p i k : Nat)
    {c : Nat} (h1 : lo ≤ c) (h2 : c < lo + k) (hc : t c < t (c + 1)) (hend : t (c + 1) = t (lo + k)) :
    ∑ d ∈ Finset.Ico lo (lo + k), ((prim t p i d).eval (t (d + 1)) - (prim t p i d).eval (t d)) =
      (prim t p i c).eval (t (lo + k)) - (prim t p i lo).eval (t lo) := by
  induction k generalizing c with
  | zero => omega
  | succ k ih =>
    rw [show lo + (k + 1) = lo + k + 1 from rfl, Finset.sum_Ico_succ_top (by omega)]
    by_cases hk : t (lo + k) < t (lo + k + 1)
    · obtain rfl : c = lo + k := by
        by_contra hne
        have : t (c + 1) ≤ t (lo + k) := ht (by omega)
        rw [hend] at this
        exact absurd hk (not_lt.2 this)
      rcases Nat.eq_zero_or_pos k with rfl | hk0
      · simp
      · -- the previous interval which is not empty
        have hex : ∃ c', lo ≤ c' ∧ c' < lo + k ∧ t c' < t (c' + 1) ∧ t (c' + 1) = t (lo + k) := by
          have : ∀ m, m < k → (∃ c', lo ≤ c' ∧ c' ≤ lo + m ∧ t c' < t (c' + 1) ∧
              t (c' + 1) = t (lo + m + 1)) := by
            intro m
            induction m with
            | zero => exact fun _ => ⟨lo, le_refl _, by omega, hlo, rfl⟩
            | succ m ihm =>
              intro hm
              by_cases hm' : t (lo + (m + 1)) < t (lo + (m + 1) + 1)
              · exact ⟨lo + (m + 1), by omega, by omega, hm', rfl⟩
              · obtain ⟨c', g1, g2, g3, g4⟩ := ihm (by omega)
                refine ⟨c', g1, by omega, g3, ?_⟩
                rw [g4]
                exact le_antisymm (ht (by omega)) (not_lt.1 hm')
          obtain ⟨c', g1, g2, g3, g4⟩ := this (k - 1) (by omega)
          exact ⟨c', g1, by omega, g3, by rw [g4]; congr 1; omega⟩
        obtain ⟨c', g1, g2, g3, g4⟩ := hex
        rw [ih g1 g2 g3 g4, prim_jump ht g2 g3 g4]
        ring
    · have heq : t (lo + k) = t (lo + k + 1) := le_antisymm (ht (by omega)) (not_lt.1 hk)
      have hne : c ≠ lo + k := by
        rintro rfl
        exact hk hc
      rw [ih h1 (by omega) hc (by rw [hend, heq]; rfl), ← heq]
      ring

/-- Telescoping of the differences of distant terms. -/
theorem sum_diff {M : Type*} [AddCommGroup M] (f : Nat → M) (m N : Nat) :
    ∑ i ∈ Finset.range N, (f (i + m) - f i) = ∑ k ∈ Finset.range m, (f (N + k) - f k) := by
  induction m with
  | zero => simp
  | succ m ih =>
    rw [Finset.sum_range_succ, ← ih, ← sub_eq_zero]
    have : ∑ i ∈ Finset.range N, (f (i + (m + 1)) - f i) =
        ∑ i ∈ Finset.range N, (f (i + m) - f i) + ∑ i ∈ Finset.range N, (f (i + m + 1) - f (i + m)) := by
      rw [← Finset.sum_add_distrib]
      refine Finset.sum_congr rfl fun i _ => ?_
      rw [show i + (m + 1) = i + m + 1 from rfl]; abel
    have tel : ∑ i ∈ Finset.range N, (f (i + m + 1) - f (i + m)) = f (N + m) - f m := by
      have := Finset.sum_range_sub (fun i => f (i + m)) N
      simpa only [Nat.zero_add, Nat.add_right_comm] using this
    rw [this, tel]; abel

end DDC.Spec
