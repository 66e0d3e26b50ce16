import Verif.Lemmas.Cardinal
import Mathlib.Algebra.Polynomial.AlgebraMap
import Mathlib.Algebra.Polynomial.Derivative
import Mathlib.Algebra.Order.BigOperators.Ring.Finset
import Mathlib.Tactic.LinearCombination
import Mathlib.Tactic.Positivity

/-!
# The values of uniform B-splines at their centres

The polynomial whose coefficients are the values of a uniform B-spline at equally spaced points is a sum of
`(-1)^i wᵢ (1 + X)^(d-2i) (1 - X)^(2i)` with positive `wᵢ`: the quadratic form of the values is a sum of
squares, for any degree.
-/

set_option linter.unusedSectionVars false

namespace DDC.Toeplitz

open Polynomial

variable {K : Type} [Field K] [LinearOrder K] [IsStrictOrderedRing K]

/-! ## The polynomial of the values -/

/-- The values at `δ, δ + 1, …`. -/
noncomputable def samples (δ : K) (q : Nat) : K[X] := ∑ k ∈ Finset.range (q + 2), C (cardinal q ((k : K) + δ)) * X ^ k

theorem samples_coeff {δ : K} (hδ : 0 ≤ δ) (q k : Nat) : (samples δ q).coeff k = cardinal q ((k : K) + δ) := by
  rw [samples, finset_sum_coeff]
  simp only [coeff_C_mul_X_pow]
  rw [Finset.sum_ite_eq (Finset.range (q + 2)) k]
  split_ifs with h
  · rfl
  · rw [Finset.mem_range, not_lt] at h
    have : ((q : K) + 2) ≤ k := by exact_mod_cast h
    rw [cardinal_big q (by linarith)]

theorem samples_succ {δ : K} (hδ : 0 ≤ δ) (hδ1 : δ ≤ 1) (q : Nat) : ((q : K[X]) + 2) * samples δ (q + 1) =
    (C δ + ((q : K[X]) + 2 - C δ) * X) * samples δ q + X * (1 - X) * derivative (samples δ q) := by
  have hq : (0 : K) ≤ q := Nat.cast_nonneg q
  have hq2 : (q : K) + 2 ≠ 0 := by linarith
  rw [show ((q : K[X]) + 2) = C ((q : K) + 2) by rw [C_add, map_natCast, map_ofNat],
    show (C δ + (C ((q : K) + 2) - C δ) * X) * samples δ q + X * (1 - X) * derivative (samples δ q) =
      C δ * samples δ q + X * (C ((q : K) + 2 - δ) * samples δ q + derivative (samples δ q) - X * derivative (samples δ q)) by
      rw [C_sub]; ring]
  ext k
  rcases k with _ | k
  · simp only [coeff_C_mul, coeff_add, samples_coeff hδ, mul_coeff_zero, coeff_X_zero, zero_mul, add_zero, coeff_C_zero]
    rw [cardinal, cardinal_neg q (show ((0 : Nat) : K) + δ - 1 ≤ 0 by simpa using hδ1)]
    push_cast
    field_simp
    ring
  · rw [coeff_C_mul, coeff_add, coeff_C_mul, coeff_X_mul, coeff_sub, coeff_add, coeff_C_mul, samples_coeff hδ,
      samples_coeff hδ, samples_coeff hδ, coeff_derivative, samples_coeff hδ, cardinal]
    rcases k with _ | k
    · rw [mul_coeff_zero, coeff_X_zero]
      have : ((0 + 1 : Nat) : K) + δ - 1 = ((0 : Nat) : K) + δ := by push_cast; ring
      rw [this]
      field_simp
      push_cast
      ring
    · rw [coeff_X_mul, coeff_derivative, samples_coeff hδ]
      have : ((k + 1 + 1 : Nat) : K) + δ - 1 = ((k + 1 : Nat) : K) + δ := by push_cast; ring
      rw [this]
      field_simp
      push_cast
      ring

/-- The terms of the sums. -/
noncomputable def term (d i : Nat) : K[X] := (1 + X) ^ (d - 2 * i) * (1 - X) ^ (2 * i)

/-- The recurrence on a product of powers. -/
theorem step_powers (δ : K) (j e : Nat) : 2 * ((C δ + ((j : K[X]) + (e : K[X]) + C δ) * X) * ((1 + X) ^ j * (1 - X) ^ e) +
      X * (1 - X) * derivative ((1 + X) ^ j * (1 - X) ^ e)) =
    ((j : K[X]) + 2 * C δ) * ((1 + X) ^ (j + 1) * (1 - X) ^ e) - (j : K[X]) * ((1 + X) ^ (j - 1) * (1 - X) ^ (e + 2)) := by
  rcases j with _ | j <;> rcases e with _ | e
  · simp; ring
  · simp [derivative_pow, derivative_mul]; ring
  · simp [derivative_pow, derivative_mul]; ring
  · simp [derivative_pow, derivative_mul]; ring

/-- A sum with positive weights. -/
def Alternating (d : Nat) (S : K[X]) : Prop :=
  ∃ w : Nat → K, (∀ i, 2 * i ≤ d → 0 < w i) ∧ (∀ i, d < 2 * i → w i = 0) ∧
    S = ∑ i ∈ Finset.range (d + 1), C ((-1) ^ i * w i) * term d i

theorem Alternating.step {δ : K} (hδ : 0 < δ) {d : Nat} {S R : K[X]} (h : Alternating d S) {c : K} (hc : 0 < c)
    (hR : C c * R = (C δ + ((d : K[X]) + C δ) * X) * S + X * (1 - X) * derivative S) : Alternating (d + 1) R := by
  obtain ⟨w, h1, h2, rfl⟩ := h
  have hterm : ∀ i, 2 * i ≤ d → (C δ + ((d : K[X]) + C δ) * X) * term d i + X * (1 - X) * derivative (term d i) =
      C (((d : K) - 2 * i + 2 * δ) / 2) * term (d + 1) i - C (((d : K) - 2 * i) / 2) * term (d + 1) (i + 1) := by
    intro i hi
    obtain ⟨j, rfl⟩ : ∃ j, d = j + 2 * i := ⟨d - 2 * i, by omega⟩
    have h2 : (C (2 : K) : K[X]) ≠ 0 := C_ne_zero.2 two_ne_zero
    refine mul_left_cancel₀ h2 ?_
    have := step_powers δ j (2 * i)
    rw [term, term, term, show j + 2 * i - 2 * i = j by omega, show j + 2 * i + 1 - 2 * i = j + 1 by omega,
      show j + 2 * i + 1 - 2 * (i + 1) = j - 1 by omega, show 2 * (i + 1) = 2 * i + 2 by ring]
    have e1 : ∀ y : K, C 2 * C (y / 2) = (C y : K[X]) := fun y => by rw [← C_mul, mul_div_cancel₀ _ two_ne_zero]
    rw [mul_sub (C (2 : K)) (C _ * _), ← mul_assoc (C (2 : K)) (C ((_ + 2 * δ) / 2)), e1,
      ← mul_assoc (C (2 : K)) (C (_ / 2)), e1]
    push_cast at this ⊢
    simp only [C_add, C_sub, C_mul, map_natCast, map_ofNat] at this ⊢
    linear_combination this
  let w' : Nat → K
    | 0 => ((d : K) + 2 * δ) / 2 * w 0 / c
    | i + 1 => (((d : K) - 2 * (i + 1) + 2 * δ) / 2 * w (i + 1) + ((d : K) - 2 * i) / 2 * w i) / c
  refine ⟨w', fun i hi => ?_, fun i hi => ?_, ?_⟩
  · rcases i with _ | i
    · have := h1 0 (by omega)
      have hd : (0 : K) ≤ d := Nat.cast_nonneg d
      show 0 < ((d : K) + 2 * δ) / 2 * w 0 / c
      positivity
    · have e1 := h1 i (by omega)
      have e2 : 0 < (d : K) - 2 * i := by
        have : ((2 * i + 1 : Nat) : K) ≤ d := by exact_mod_cast (show 2 * i + 1 ≤ d by omega)
        push_cast at this
        linarith
      have e3 : 0 ≤ ((d : K) - 2 * (i + 1) + 2 * δ) / 2 * w (i + 1) := by
        rcases Nat.lt_or_ge d (2 * (i + 1)) with g | g
        · rw [h2 _ g, mul_zero]
        · have g1 := h1 _ g
          have g2 : ((2 * (i + 1) : Nat) : K) ≤ d := by exact_mod_cast g
          push_cast at g2
          have : 0 ≤ (d : K) - 2 * (i + 1) := by linarith
          positivity
      show 0 < (((d : K) - 2 * (i + 1) + 2 * δ) / 2 * w (i + 1) + ((d : K) - 2 * i) / 2 * w i) / c
      have : 0 < ((d : K) - 2 * i) / 2 * w i := by positivity
      exact div_pos (by linarith) hc
  · rcases i with _ | i
    · omega
    · show (((d : K) - 2 * (i + 1) + 2 * δ) / 2 * w (i + 1) + ((d : K) - 2 * i) / 2 * w i) / c = 0
      rw [h2 (i + 1) (by omega)]
      rcases Nat.lt_or_ge d (2 * i) with g | g
      · rw [h2 i g]; simp
      · have : d = 2 * i := by omega
        rw [this]; push_cast; simp
  · refine mul_left_cancel₀ (C_ne_zero.2 hc.ne') ?_
    rw [hR, Polynomial.derivative_sum, Finset.mul_sum, Finset.mul_sum, ← Finset.sum_add_distrib]
    have e1 : ∀ i ∈ Finset.range (d + 1), (C δ + ((d : K[X]) + C δ) * X) * (C ((-1) ^ i * w i) * term d i) +
        X * (1 - X) * derivative (C ((-1) ^ i * w i) * term d i) =
        C ((-1) ^ i * (((d : K) - 2 * i + 2 * δ) / 2 * w i)) * term (d + 1) i +
          C ((-1) ^ (i + 1) * (((d : K) - 2 * i) / 2 * w i)) * term (d + 1) (i + 1) := by
      intro i _
      rcases Nat.lt_or_ge d (2 * i) with g | g
      · rw [h2 i g]; simp
      · rw [derivative_C_mul]
        have := hterm i g
        rw [show (-1 : K) ^ i * (((d : K) - 2 * i + 2 * δ) / 2 * w i) =
            ((-1) ^ i * w i) * (((d : K) - 2 * i + 2 * δ) / 2) by ring,
          show (-1 : K) ^ (i + 1) * (((d : K) - 2 * i) / 2 * w i) =
            -(((-1) ^ i * w i) * (((d : K) - 2 * i) / 2)) by ring, C_neg,
          C_mul (b := ((d : K) - 2 * i + 2 * δ) / 2), C_mul (b := ((d : K) - 2 * i) / 2)]
        linear_combination C ((-1) ^ i * w i) * this
    rw [Finset.sum_congr rfl e1, Finset.sum_add_distrib]
    have e2 : ∑ i ∈ Finset.range (d + 1), C ((-1) ^ i * (((d : K) - 2 * i + 2 * δ) / 2 * w i)) * term (d + 1) i =
        ∑ i ∈ Finset.range (d + 1), C ((-1) ^ (i + 1) * (((d : K) - 2 * (i + 1 : Nat) + 2 * δ) / 2 * w (i + 1))) *
          term (d + 1) (i + 1) + C (((d : K) + 2 * δ) / 2 * w 0) * term (d + 1) 0 := by
      have := Finset.sum_range_succ (fun i : Nat => C ((-1) ^ i * (((d : K) - 2 * i + 2 * δ) / 2 * w i)) * term (d + 1) i) (d + 1)
      rw [h2 (d + 1) (by omega), mul_zero, mul_zero, C_0, zero_mul, add_zero] at this
      rw [← this, Finset.sum_range_succ']
      simp
    rw [e2, Finset.sum_range_succ' _ (d + 1), mul_add, Finset.mul_sum, add_right_comm, ← Finset.sum_add_distrib]
    congr 1
    · refine Finset.sum_congr rfl fun i _ => ?_
      rw [← add_mul, ← C_add, ← mul_assoc (C c), ← C_mul (a := c)]
      congr 2
      show _ = c * ((-1) ^ (i + 1) * ((((d : K) - 2 * (i + 1) + 2 * δ) / 2 * w (i + 1) + ((d : K) - 2 * i) / 2 * w i) / c))
      have := hc.ne'
      field_simp
      push_cast
      ring
    · rw [← mul_assoc (C c), ← C_mul (a := c)]
      congr 2
      show _ = c * ((-1) ^ 0 * (((d : K) + 2 * δ) / 2 * w 0 / c))
      have := hc.ne'
      field_simp

theorem alternating_half (q : Nat) : Alternating (q + 1) (samples (1 / 2 : K) q) := by
  induction q with
  | zero =>
    refine ⟨fun i => if i = 0 then 1 / 2 else 0, fun i hi => ?_, fun i hi => ?_, ?_⟩
    · dsimp only; rw [if_pos (by omega)]; norm_num
    · dsimp only; rw [if_neg (by omega)]
    · rw [samples, Finset.sum_range_succ, Finset.sum_range_succ, Finset.sum_range_succ, Finset.sum_range_succ]
      norm_num [cardinal, term]
      ring
  | succ q ih =>
    have hq : (0 : K) ≤ q := Nat.cast_nonneg q
    refine ih.step (δ := 1 / 2) (by norm_num) (c := (q : K) + 2) (by linarith) ?_
    have := samples_succ (K := K) (δ := 1 / 2) (by norm_num) (by norm_num) q
    have e : (C (1 / 2 : K)) + C (1 / 2 : K) = 1 := by rw [← C_add]; norm_num
    simp only [C_add, map_natCast, map_ofNat]
    rw [this]
    push_cast
    linear_combination (X * samples (1 / 2 : K) q) * (1 - e)

theorem alternating_one (q : Nat) : Alternating q (samples (1 : K) q) := by
  induction q with
  | zero =>
    refine ⟨fun i => if i = 0 then 1 else 0, fun i hi => ?_, fun i hi => ?_, ?_⟩
    · dsimp only; rw [if_pos (by omega)]; norm_num
    · dsimp only; rw [if_neg (by omega)]
    · rw [samples, Finset.sum_range_succ, Finset.sum_range_succ, Finset.sum_range_succ]
      norm_num [cardinal, term]
  | succ q ih =>
    have hq : (0 : K) ≤ q := Nat.cast_nonneg q
    refine ih.step (δ := 1) (by norm_num) (c := (q : K) + 2) (by linarith) ?_
    have := samples_succ (K := K) (δ := 1) (by norm_num) (by norm_num) q
    simp only [C_add, map_natCast, map_ofNat, C_1] at this ⊢
    rw [this]
    ring

/-! ## The action on sequences -/

/-- The shift. -/
def shift : Module.End K (Int → K) where
  toFun f k := f (k + 1)
  map_add' _ _ := rfl
  map_smul' _ _ := rfl

theorem shift_pow (i : Nat) (f : Int → K) (k : Int) : ((shift : Module.End K (Int → K)) ^ i) f k = f (k + i) := by
  induction i generalizing k with
  | zero => simp
  | succ i ih =>
    rw [pow_succ', Module.End.mul_apply]
    show ((shift : Module.End K (Int → K)) ^ i) f (k + 1) = _
    rw [ih]
    congr 1
    push_cast
    ring

/-- The action of a polynomial. -/
noncomputable def act (P : K[X]) (f : Int → K) : Int → K := aeval (shift : Module.End K (Int → K)) P f

theorem act_apply (P : K[X]) {N : Nat} (hN : P.natDegree < N) (f : Int → K) (k : Int) :
    act P f k = ∑ i ∈ Finset.range N, P.coeff i * f (k + i) := by
  rw [act, aeval_eq_sum_range' hN, LinearMap.sum_apply, Finset.sum_apply]
  refine Finset.sum_congr rfl fun i _ => ?_
  rw [LinearMap.smul_apply, Pi.smul_apply, shift_pow, smul_eq_mul]

theorem act_mul (P Q : K[X]) (f : Int → K) : act (P * Q) f = act P (act Q f) := by
  rw [act, map_mul, Module.End.mul_apply]; rfl

theorem act_plus (f : Int → K) (k : Int) : act (1 + X) f k = f k + f (k + 1) := by
  rw [act, map_add, map_one, aeval_X]; rfl

theorem act_minus (f : Int → K) (k : Int) : act (1 - X) f k = f k - f (k + 1) := by
  rw [act, map_sub, map_one, aeval_X]; rfl

theorem act_sum {ι : Type} (s : Finset ι) (P : ι → K[X]) (f : Int → K) (k : Int) :
    act (∑ i ∈ s, P i) f k = ∑ i ∈ s, act (P i) f k := by
  rw [act, map_sum, LinearMap.sum_apply, Finset.sum_apply]; rfl

theorem act_C_mul (c : K) (P : K[X]) (f : Int → K) (k : Int) : act (C c * P) f k = c * act P f k := by
  rw [act, map_mul, aeval_C, Module.End.mul_apply]; rfl

theorem act_one (f : Int → K) : act 1 f = f := by rw [act, map_one]; rfl

/-- Sequences with a period. -/
def Periodic (n : Nat) (f : Int → K) : Prop := ∀ k, f (k + n) = f k

theorem Periodic.act {n : Nat} {f : Int → K} (hf : Periodic n f) (P : K[X]) : Periodic n (act P f) := by
  intro k
  rw [act_apply P (Nat.lt_succ_self _), act_apply P (Nat.lt_succ_self _)]
  refine Finset.sum_congr rfl fun i _ => ?_
  rw [add_right_comm, hf]

theorem sum_shift_one {n : Nat} {f : Int → K} (hf : Periodic n f) :
    ∑ k ∈ Finset.range n, f ((k : Int) + 1) = ∑ k ∈ Finset.range n, f k := by
  have h1 := Finset.sum_range_succ (fun k : Nat => f k) n
  have h2 := Finset.sum_range_succ' (fun k : Nat => f k) n
  have h3 := hf 0
  rw [zero_add] at h3
  rw [h1] at h2
  push_cast at h2
  rw [h3] at h2
  exact (add_right_cancel h2).symm

theorem sum_shift {n : Nat} {f : Int → K} (hf : Periodic n f) (m : Nat) :
    ∑ k ∈ Finset.range n, f ((k : Int) + m) = ∑ k ∈ Finset.range n, f k := by
  induction m with
  | zero => simp
  | succ m ih =>
    rw [← ih, ← sum_shift_one (f := fun k => f (k + m)) (fun k => by dsimp only; rw [add_right_comm, hf])]
    refine Finset.sum_congr rfl fun k _ => ?_
    congr 1
    push_cast
    ring

/-- Summation by parts. -/
theorem pairing {n : Nat} (a i : Nat) {f g : Int → K} (hf : Periodic n f) (hg : Periodic n g) :
    (-1) ^ i * ∑ k ∈ Finset.range n, f ((k : Int) + (a + i : Nat)) * act ((1 + X) ^ (2 * a) * (1 - X) ^ (2 * i)) g k =
      ∑ k ∈ Finset.range n, act ((1 + X) ^ a * (1 - X) ^ i) f k * act ((1 + X) ^ a * (1 - X) ^ i) g k := by
  induction a generalizing f g with
  | zero =>
    induction i generalizing f g with
    | zero => simp [act_one]
    | succ i ih =>
      simp only [Nat.mul_zero, pow_zero, one_mul, Nat.zero_add] at ih ⊢
      rw [pow_succ (1 - X : K[X]) i, act_mul, act_mul, ← ih (hf.act _) (hg.act _), pow_succ, mul_assoc]
      congr 1
      rw [show (1 - X : K[X]) ^ (2 * (i + 1)) = (1 - X) * ((1 - X) ^ (2 * i) * (1 - X)) by ring, act_mul, act_mul]
      have hh : Periodic n (act ((1 - X) ^ (2 * i)) (act (1 - X) g)) := (hg.act _).act _
      generalize act ((1 - X) ^ (2 * i)) (act (1 - X) g) = h at hh
      have e := sum_shift_one (f := fun k => f (k + i) * h k) (n := n)
        (fun k => by dsimp only; rw [add_right_comm, hf, hh])
      simp only [act_minus]
      rw [neg_one_mul, ← Finset.sum_neg_distrib]
      have : ∀ k ∈ Finset.range n, -(f ((k : Int) + (i + 1 : Nat)) * (h k - h ((k : Int) + 1))) =
          f ((k : Int) + 1 + i) * h ((k : Int) + 1) - f ((k : Int) + i + 1) * h k := by
        intro k _
        rw [show (k : Int) + (i + 1 : Nat) = (k : Int) + i + 1 by push_cast; ring,
          show (k : Int) + 1 + i = (k : Int) + i + 1 by ring]
        ring
      rw [Finset.sum_congr rfl this, Finset.sum_sub_distrib, e, ← Finset.sum_sub_distrib]
      exact Finset.sum_congr rfl fun k _ => by ring
  | succ a ih =>
    rw [show (1 + X : K[X]) ^ (a + 1) * (1 - X) ^ i = ((1 + X) ^ a * (1 - X) ^ i) * (1 + X) by ring,
      act_mul _ (1 + X) f, act_mul _ (1 + X) g,
      ← ih (hf.act _) (hg.act _)]
    congr 1
    rw [show (1 + X : K[X]) ^ (2 * (a + 1)) * (1 - X) ^ (2 * i) =
      (1 + X) * (((1 + X) ^ (2 * a) * (1 - X) ^ (2 * i)) * (1 + X)) by ring, act_mul, act_mul]
    have hh : Periodic n (act ((1 + X) ^ (2 * a) * (1 - X) ^ (2 * i)) (act (1 + X) g)) := (hg.act _).act _
    generalize act ((1 + X) ^ (2 * a) * (1 - X) ^ (2 * i)) (act (1 + X) g) = h at hh
    have e := sum_shift_one (f := fun k => f (k + (a + i : Nat)) * h k) (n := n)
      (fun k => by dsimp only; rw [add_right_comm, hf, hh])
    simp only [act_plus]
    have : ∀ k ∈ Finset.range n, f ((k : Int) + (a + 1 + i : Nat)) * (h k + h ((k : Int) + 1)) =
        f ((k : Int) + 1 + (a + i : Nat)) * h ((k : Int) + 1) + f ((k : Int) + (a + i : Nat) + 1) * h k := by
      intro k _
      rw [show (k : Int) + (a + 1 + i : Nat) = (k : Int) + (a + i : Nat) + 1 by push_cast; ring,
        show (k : Int) + 1 + (a + i : Nat) = (k : Int) + (a + i : Nat) + 1 by ring]
      ring
    rw [Finset.sum_congr rfl this, Finset.sum_add_distrib, e, ← Finset.sum_add_distrib]
    exact Finset.sum_congr rfl fun k _ => by ring

/-- The quadratic form is a sum of squares. -/
theorem Alternating.squares {m : Nat} {S : K[X]} (hS : Alternating (2 * m) S) : ∃ w : Nat → K, (∀ i, i ≤ m → 0 < w i) ∧
    ∀ (n : Nat) (f : Int → K), Periodic n f → ∑ k ∈ Finset.range n, f ((k : Int) + m) * act S f k =
      ∑ i ∈ Finset.range (m + 1), w i * ∑ k ∈ Finset.range n, (act ((1 + X) ^ (m - i) * (1 - X) ^ i) f k) ^ 2 := by
  obtain ⟨w, h1, h2, rfl⟩ := hS
  refine ⟨w, fun i hi => h1 i (by omega), fun n f hf => ?_⟩
  have e1 : ∀ k, act (∑ i ∈ Finset.range (2 * m + 1), C ((-1) ^ i * w i) * term (2 * m) i) f k =
      ∑ i ∈ Finset.range (m + 1), (-1) ^ i * w i * act (term (2 * m) i) f k := by
    intro k
    rw [act_sum, show 2 * m + 1 = (m + 1) + m by omega, Finset.sum_range_add,
      Finset.sum_eq_zero (s := Finset.range m) fun i _ => by rw [h2 _ (by omega), mul_zero, act_C_mul, zero_mul], add_zero]
    exact Finset.sum_congr rfl fun i _ => act_C_mul _ _ _ _
  simp only [e1, Finset.mul_sum]
  rw [Finset.sum_comm]
  refine Finset.sum_congr rfl fun i hi => ?_
  have him := Finset.mem_range.1 hi
  have e := pairing (m - i) i hf hf
  rw [show m - i + i = m by omega, Finset.mul_sum] at e
  rw [← Finset.mul_sum]
  have e' : ∑ k ∈ Finset.range n, (act ((1 + X) ^ (m - i) * (1 - X) ^ i) f k) ^ 2 =
      ∑ k ∈ Finset.range n, act ((1 + X) ^ (m - i) * (1 - X) ^ i) f k * act ((1 + X) ^ (m - i) * (1 - X) ^ i) f k :=
    Finset.sum_congr rfl fun k _ => sq _
  rw [e', ← e, Finset.mul_sum]
  refine Finset.sum_congr rfl fun k _ => ?_
  rw [term, show 2 * m - 2 * i = 2 * (m - i) by omega]
  ring

theorem periodic_zero {n : Nat} (hn : 0 < n) {f : Int → K} (hf : Periodic n f) (h : ∀ k : Nat, k < n → f k = 0) (k : Int) :
    f k = 0 := by
  have hz : ∀ (j : Nat) (k : Int), f (k + j * n) = f k := by
    intro j
    induction j with
    | zero => intro k; simp
    | succ j ih =>
      intro k
      rw [show k + ((j + 1 : Nat) : Int) * n = (k + j * n) + n by push_cast; ring, hf, ih]
  have h1 := Int.emod_nonneg k (show (n : Int) ≠ 0 by omega)
  have h2 := Int.emod_lt_of_pos k (show (0 : Int) < n by omega)
  have h3 := Int.emod_add_mul_ediv k n
  have h4 := h (k % n).toNat (by omega)
  rw [Int.toNat_of_nonneg h1] at h4
  rcases le_total 0 (k / n) with c | c
  · have := hz (k / n).toNat (k % n)
    rw [Int.toNat_of_nonneg c, mul_comm, h3, h4] at this
    exact this
  · have := hz (-(k / n)).toNat k
    rw [Int.toNat_of_nonneg (by omega), show k + -(k / n) * n = k % n by rw [neg_mul, mul_comm]; omega, h4] at this
    exact this.symm

theorem const_of_minus {f : Int → K} (h : ∀ k, act (1 - X) f k = 0) (k : Int) : f k = f 0 := by
  have h' : ∀ k, f (k + 1) = f k := fun k => by
    have := h k
    rw [act_minus] at this
    linarith
  induction k using Int.induction_on with
  | zero => rfl
  | succ i ih => rw [h', ih]
  | pred i ih => rw [← ih, ← h' (-(i : Int) - 1), sub_add_cancel]

theorem minus_pow {n : Nat} (hn : 0 < n) (m : Nat) {f : Int → K} (hf : Periodic n f) (h : ∀ k, act ((1 - X) ^ (m + 1)) f k = 0)
    (k : Int) : act (1 - X) f k = 0 := by
  induction m generalizing f k with
  | zero => simpa using h k
  | succ m ih =>
    have h1 : ∀ k, act (1 - X) (act (1 - X) f) k = 0 := fun k => by
      refine ih (hf.act (1 - X)) (fun k => ?_) k
      rw [← act_mul, ← pow_succ]
      exact h k
    have h2 := const_of_minus h1
    have h3 : ∑ k ∈ Finset.range n, act (1 - X) f k = 0 := by
      simp only [act_minus]
      rw [Finset.sum_sub_distrib, sum_shift_one hf, sub_self]
    rw [Finset.sum_congr rfl fun (k : Nat) _ => h2 (k : Int), Finset.sum_const, Finset.card_range, nsmul_eq_mul] at h3
    rw [h2]
    exact (mul_eq_zero.1 h3).resolve_left (by exact_mod_cast hn.ne')

theorem plus_pow_const (m : Nat) {f : Int → K} {c : K} (h : ∀ k, f k = c) (k : Int) : act ((1 + X) ^ m) f k = 2 ^ m * c := by
  induction m generalizing f c with
  | zero => simp [act_one, h]
  | succ m ih =>
    rw [pow_succ, act_mul, ih (c := 2 * c) fun k => by rw [act_plus, h, h]; ring]
    ring

/-- The quadratic form is positive. -/
theorem Alternating.pos {m : Nat} {S : K[X]} (hS : Alternating (2 * m) S) {n : Nat} (hn : 0 < n) {f : Int → K}
    (hf : Periodic n f) (h0 : ∃ k, f k ≠ 0) : 0 < ∑ k ∈ Finset.range n, f ((k : Int) + m) * act S f k := by
  obtain ⟨w, h1, h2⟩ := hS.squares
  rw [h2 n f hf]
  have hnn : ∀ i ∈ Finset.range (m + 1),
      0 ≤ w i * ∑ k ∈ Finset.range n, (act ((1 + X) ^ (m - i) * (1 - X) ^ i) f k) ^ 2 := fun i hi =>
    mul_nonneg (h1 i (by have := Finset.mem_range.1 hi; omega)).le (Finset.sum_nonneg fun _ _ => sq_nonneg _)
  refine lt_of_le_of_ne (Finset.sum_nonneg hnn) fun h => ?_
  have h3 := (Finset.sum_eq_zero_iff_of_nonneg hnn).1 h.symm
  have key : ∀ i, i ≤ m → ∀ k, act ((1 + X) ^ (m - i) * (1 - X) ^ i) f k = 0 := by
    intro i hi k
    have h4 := (mul_eq_zero.1 (h3 i (Finset.mem_range.2 (by omega)))).resolve_left (h1 i hi).ne'
    have h5 := (Finset.sum_eq_zero_iff_of_nonneg fun _ _ => sq_nonneg _).1 h4
    exact periodic_zero hn (hf.act _) (fun k hk => by
      have := h5 k (Finset.mem_range.2 hk)
      simpa using this) k
  obtain ⟨k, hk⟩ := h0
  refine hk ?_
  rcases m with _ | m
  · have := key 0 le_rfl k
    simpa [act_one] using this
  · have h6 := key (m + 1) le_rfl
    simp only [Nat.sub_self, pow_zero, one_mul] at h6
    have h7 := const_of_minus (minus_pow hn m hf h6)
    have h8 := key 0 (by omega) k
    simp only [Nat.sub_zero, pow_zero, mul_one] at h8
    rw [plus_pow_const (m + 1) h7 k] at h8
    rw [h7]
    exact (mul_eq_zero.1 h8).resolve_left (by positivity)

end DDC.Toeplitz
