import Verif.Lemmas.NUBS
import Mathlib.Data.Nat.Factorial.Basic

/-!
# Derivatives of the B-splines

First the theory (derivatives of the polynomial pieces in terms of the B-splines of lower degree), then
the loops of `eval_deriv` and `eval_basis_and_n_derivs`.
-/

namespace DDC

set_option linter.unusedSectionVars false

open Polynomial One

variable {K : Type} [Field K] [LinearOrder K]

namespace Spec

/-- The derivative of a B-spline of degree `q + 1` is a difference of two terms; on the interval
`c = m + q + 1` the first of them vanishes for the first B-spline and the second one for the last. -/
theorem derivative_terms {t : Nat → K} (ht : Monotone t) {b x : K} {c : Nat} (hc : InCell t b x c)
    (q m r : Nat) (hm : c = m + (q + 1)) :
    (derivative (piece t c (q + 1) (m + r))).eval x =
      (if r = 0 then 0 else
        ((q + 1 : Nat) : K) * bspline t b q (c - q + (r - 1)) x / (t (c + r) - t (c - q + (r - 1)))) -
      (if r = q + 1 then 0 else
        ((q + 1 : Nat) : K) * bspline t b q (c - q + r) x / (t (c + r + 1) - t (c - q + r))) := by
  subst hm
  rw [derivative_piece ht, bspline_eq_piece ht hc, bspline_eq_piece ht hc]
  simp only [eval_mul, eval_sub, eval_C]
  have z1 : r = 0 → piece t (m + (q + 1)) q (m + r) = 0 := fun h =>
    piece_zero _ _ _ _ (by omega)
  have z2 : r = q + 1 → piece t (m + (q + 1)) q (m + r + 1) = 0 := fun h =>
    piece_zero _ _ _ _ (by omega)
  have e1 : r ≠ 0 → m + (q + 1) - q + (r - 1) = m + r := by omega
  have e2 : m + r + q + 1 = m + (q + 1) + r := by omega
  have e3 : m + r + q + 2 = m + (q + 1) + r + 1 := by omega
  have e4 : m + (q + 1) - q + r = m + r + 1 := by omega
  rw [e2, e3, e4, mul_sub]
  congr 1
  · split
    · rename_i h; rw [z1 h]; simp
    · rename_i h; rw [e1 h]; ring
  · split
    · rename_i h; rw [z2 h]; simp
    · ring

/-- Coefficients of the derivatives, from the weights `w`. -/
def dcoef (w : Nat → Nat → K) : Nat → Nat → K
  | 0, j => if j = 0 then 1 else 0
  | k + 1, j => (dcoef w k j - if j = 0 then 0 else dcoef w k (j - 1)) * w (k + 1) j

theorem dcoef_zero (w : Nat → Nat → K) (k j : Nat) (h : k < j) : dcoef w k j = 0 := by
  induction k generalizing j with
  | zero => rw [dcoef, if_neg (by omega)]
  | succ k ih => rw [dcoef, ih j (by omega), if_neg (by omega), ih (j - 1) (by omega)]; simp

/-- Weights of the `i`-th B-spline of degree `p`. -/
def weight (t : Nat → K) (p i : Nat) (k j : Nat) : K := 1 / (t (i + j + (p - k) + 1) - t (i + j))

/-- The derivatives of all orders as combinations of B-splines of lower degree. -/
theorem derivative_iterate {t : Nat → K} (ht : Monotone t) (c p i k : Nat) (hk : k ≤ p) :
    derivative^[k] (piece t c p i) =
      C ((p.descFactorial k : Nat) : K) *
        ∑ j ∈ Finset.range (k + 1), C (dcoef (weight t p i) k j) * piece t c (p - k) (i + j) := by
  induction k with
  | zero => simp [dcoef]
  | succ k ih =>
    rw [Function.iterate_succ_apply', ih (by omega)]
    have hpk : p - k = (p - (k + 1)) + 1 := by omega
    rw [derivative_C_mul, Polynomial.derivative_sum]
    have hterm : ∀ j, derivative (C (dcoef (weight t p i) k j) * piece t c (p - k) (i + j)) =
        C ((p - k : Nat) : K) * (C (dcoef (weight t p i) k j * weight t p i (k + 1) j) *
            piece t c (p - (k + 1)) (i + j) -
          C (dcoef (weight t p i) k j * weight t p i (k + 1) (j + 1)) *
            piece t c (p - (k + 1)) (i + (j + 1))) := by
      intro j
      rw [derivative_C_mul, hpk, derivative_piece ht, ← hpk, weight, weight]
      have e1 : i + j + (p - (k + 1)) + 1 = i + j + (p - (k + 1)) + 1 := rfl
      have e2 : i + (j + 1) + (p - (k + 1)) + 1 = i + j + (p - (k + 1)) + 2 := by omega
      have e3 : i + (j + 1) = i + j + 1 := by omega
      rw [e2, e3]
      simp only [C_mul]
      ring
    rw [Finset.sum_congr rfl (fun j _ => hterm j), ← Finset.mul_sum, Finset.sum_sub_distrib]
    rw [Nat.descFactorial_succ]
    have hs : ∑ j ∈ Finset.range (k + 1 + 1),
          C (dcoef (weight t p i) (k + 1) j) * piece t c (p - (k + 1)) (i + j) =
        (∑ j ∈ Finset.range (k + 1), C (dcoef (weight t p i) k j * weight t p i (k + 1) j) *
            piece t c (p - (k + 1)) (i + j)) -
        ∑ j ∈ Finset.range (k + 1), C (dcoef (weight t p i) k j * weight t p i (k + 1) (j + 1)) *
            piece t c (p - (k + 1)) (i + (j + 1)) := by
      have hd : ∀ j, C (dcoef (weight t p i) (k + 1) j) * piece t c (p - (k + 1)) (i + j) =
          C (dcoef (weight t p i) k j * weight t p i (k + 1) j) * piece t c (p - (k + 1)) (i + j) -
          (if j = 0 then 0 else C (dcoef (weight t p i) k (j - 1) * weight t p i (k + 1) j) *
            piece t c (p - (k + 1)) (i + j)) := by
        intro j
        rw [dcoef]
        split <;> simp only [C_mul, C_sub, C_0] <;> ring
      rw [Finset.sum_congr rfl (fun j _ => hd j), Finset.sum_sub_distrib]
      congr 1
      · rw [Finset.sum_range_succ, dcoef_zero _ _ _ (by omega)]; simp
      · rw [Finset.sum_range_succ']; simp
    rw [hs]
    push_cast
    simp only [C_mul]
    ring

end Spec

/-! ## `eval_deriv` -/

/-- Uniform: the loop taking the differences. -/
theorem UBS.diff_ok (D : Nat → K) (p : Nat) (hp : 0 < p) (a : Arr K) (h : Line a (p + 1) D (p - 1)) :
    ∃ s : Arr K × K × K, forLoop UBS.derivDiff 1 (p - 1) (a.set 0 (-(D 0)), D 0, D 0) = .ok s ∧
      s.1.size = p + 1 ∧ s.2.1 = D (p - 1) ∧
      ∀ r, r < p → s.1.val r = some ((if r = 0 then 0 else D (r - 1)) - D r) := by
  obtain ⟨s, e, h1, h2, _, h4, _⟩ := forLoop_inv (f := UBS.derivDiff)
    (fun j (s : Arr K × K × K) => s.1.size = p + 1 ∧ s.2.1 = D (j - 1) ∧ s.2.2 = D (j - 1) ∧
      (∀ r, r < j → s.1.val r = some ((if r = 0 then 0 else D (r - 1)) - D r)) ∧
      (∀ r, j ≤ r → r < p → s.1.val r = some (D r)))
    (p - 1) 1 (a.set 0 (-(D 0)), D 0, D 0)
    ⟨h.1, rfl, rfl, fun r hr => by
      obtain rfl : r = 0 := by omega
      rw [Arr.set_val]; simp, fun r hr hr' => by
      rw [Arr.set_val, if_neg (by omega)]; exact h.2 r (by omega)⟩
    (by
      rintro j ⟨a, bj, bjm1⟩ hj hj' ⟨h1, h2, h3, h4, h5⟩
      simp only at h1 h2 h3 h4 h5
      have hja : j < a.size := by omega
      simp only [UBS.derivDiff, Arr.rd_ok hja (h5 j (le_refl _) (by omega)), Res.ok_bind, Arr.wr_ok hja,
        Res.pure_eq]
      refine ⟨_, rfl, h1, rfl, rfl, fun r hr => ?_, fun r hr hr' => ?_⟩
      · rw [Arr.set_val]
        split
        · subst r; rw [if_neg (by omega), h3]
        · exact h4 r (by omega)
      · rw [Arr.set_val, if_neg (by omega)]; exact h5 r (by omega) hr')
  rw [show 1 + (p - 1) = p by omega] at *
  exact ⟨s, e, h1, h2, h4⟩

/-- Non-uniform: the loop taking the differences. -/
theorem NUBS.diff_ok {u : NUBS K} (c : U64) (D W : Nat → K) (p : Nat) (hp : 0 < p)
    (hW : ∀ (a : Arr K) j, j < p → j < a.size → a.val j = some (D j) → u.derivTerm c j a = .ok (W j))
    (a : Arr K) (h : Line a (p + 1) D (p - 1)) :
    ∃ s : Arr K × K, forLoop (u.derivDiff c) 1 (p - 1) (a.set 0 (-(W 0)), W 0) = .ok s ∧
      s.1.size = p + 1 ∧ s.2 = W (p - 1) ∧
      ∀ r, r < p → s.1.val r = some ((if r = 0 then 0 else W (r - 1)) - W r) := by
  obtain ⟨s, e, h1, h2, h4, _⟩ := forLoop_inv (f := u.derivDiff c)
    (fun j (s : Arr K × K) => s.1.size = p + 1 ∧ s.2 = W (j - 1) ∧
      (∀ r, r < j → s.1.val r = some ((if r = 0 then 0 else W (r - 1)) - W r)) ∧
      (∀ r, j ≤ r → r < p → s.1.val r = some (D r)))
    (p - 1) 1 (a.set 0 (-(W 0)), W 0)
    ⟨h.1, rfl, fun r hr => by
      obtain rfl : r = 0 := by omega
      rw [Arr.set_val]; simp, fun r hr hr' => by
      rw [Arr.set_val, if_neg (by omega)]; exact h.2 r (by omega)⟩
    (by
      rintro j ⟨a, sv⟩ hj hj' ⟨h1, h3, h4, h5⟩
      simp only at h1 h3 h4 h5
      have hja : j < a.size := by omega
      simp only [NUBS.derivDiff, hW a j (by omega) hja (h5 j (le_refl _) (by omega)), Res.ok_bind,
        Arr.wr_ok hja, Res.pure_eq]
      refine ⟨_, rfl, h1, rfl, fun r hr => ?_, fun r hr hr' => ?_⟩
      · rw [Arr.set_val]
        split
        · subst r; rw [if_neg (by omega), h3]
        · exact h4 r (by omega)
      · rw [Arr.set_val, if_neg (by omega)]; exact h5 r (by omega) hr')
  rw [show 1 + (p - 1) = p by omega] at *
  exact ⟨s, e, h1, h2, h4⟩

end DDC
