import Verif.Lemmas.SchoenbergWhitney
import Verif.Spec.Builder
import Mathlib.Algebra.Order.CompleteField
import Mathlib.Data.Real.Archimedean

/-!
# Smoothness and independence of the B-splines

The polynomial pieces of a B-spline fit together at simple knots; the B-splines of a knot interval are linearly
independent; a spline with as many zeros as coefficients is zero.
-/

namespace DDC.Spec

open Polynomial

section
variable {K : Type} [Field K] [LinearOrder K]

theorem natDegree_piece (t : Nat → K) (c p i : Nat) : (piece t c p i).natDegree ≤ p := by
  induction p generalizing i with
  | zero => rw [piece]; split_ifs <;> simp
  | succ p ih =>
    have h : ∀ (A : K) (B : K[X]) (j : Nat), B.natDegree ≤ 1 → (C A * B * piece t c p j).natDegree ≤ p + 1 := by
      intro A B j hB
      refine natDegree_mul_le.trans ?_
      have h1 : (C A * B).natDegree ≤ 1 := (natDegree_C_mul_le A B).trans hB
      have := ih j
      omega
    rw [piece]
    refine natDegree_add_le_of_degree_le (h _ _ _ ?_) (h _ _ _ ?_)
    · exact (natDegree_X_sub_C_le _)
    · refine (natDegree_sub_le _ _).trans ?_
      simp

theorem piece_succ (t : Nat → K) (c p i : Nat) : piece t c (p + 1) i =
    C (1 / (t (i + p + 1) - t i)) * (X - C (t i)) * piece t c p i +
    C (1 / (t (i + p + 2) - t (i + 1))) * (C (t (i + p + 2)) - X) * piece t c p (i + 1) := by rw [piece]

/-- A B-spline of degree at least 1 is continuous at a simple knot. -/
theorem piece_continuous {t : Nat → K} {c : Nat} (h1 : t c < t (c + 1)) (h2 : t (c + 1) < t (c + 2)) (p i : Nat) :
    (piece t c (p + 1) i).eval (t (c + 1)) = (piece t (c + 1) (p + 1) i).eval (t (c + 1)) := by
  induction p generalizing i with
  | zero =>
    have g1 : t (c + 1) - t c ≠ 0 := sub_ne_zero.2 h1.ne'
    have g2 : t (c + 2) - t (c + 1) ≠ 0 := sub_ne_zero.2 h2.ne'
    simp only [piece, eval_add, eval_mul, eval_C, eval_sub, eval_X]
    by_cases e1 : i = c
    · subst e1
      rw [if_pos rfl, if_neg (by omega), if_neg (by omega), if_pos rfl]
      simp only [eval_one, eval_zero, mul_one, mul_zero, add_zero, zero_add]
      rw [one_div_mul_cancel g1, one_div_mul_cancel g2]
    · by_cases e2 : i + 1 = c
      · subst e2
        rw [if_neg (by omega), if_pos rfl, if_neg (by omega), if_neg (by omega)]
        simp
      · by_cases e3 : i = c + 1
        · subst e3
          rw [if_neg (by omega), if_neg (by omega), if_pos rfl, if_neg (by omega)]
          simp
        · rw [if_neg e1, if_neg e2, if_neg e3, if_neg (by omega)]
  | succ p ih =>
    rw [piece_succ t c (p + 1) i, piece_succ t (c + 1) (p + 1) i]
    simp only [eval_add, eval_mul, eval_C, eval_sub, eval_X, ih]

/-- The derivatives of order less than the degree are continuous at a simple knot. -/
theorem piece_smooth {t : Nat → K} (ht : Monotone t) {c : Nat} (h1 : t c < t (c + 1)) (h2 : t (c + 1) < t (c + 2))
    {p k : Nat} (hk : k < p) (i : Nat) :
    (derivative^[k] (piece t c p i)).eval (t (c + 1)) = (derivative^[k] (piece t (c + 1) p i)).eval (t (c + 1)) := by
  induction k generalizing p i with
  | zero =>
    obtain ⟨p, rfl⟩ : ∃ q, p = q + 1 := ⟨p - 1, by omega⟩
    exact piece_continuous h1 h2 p i
  | succ k ih =>
    obtain ⟨p, rfl⟩ : ∃ q, p = q + 1 := ⟨p - 1, by omega⟩
    simp only [Function.iterate_succ_apply, derivative_piece ht, iterate_derivative_C_mul, iterate_derivative_sub,
      eval_mul, eval_C, eval_sub]
    rw [ih (by omega), ih (by omega)]

/-- The B-splines of a knot interval have the sum 1. -/
theorem piece_sum [IsStrictOrderedRing K] {t : Nat → K} (ht : Monotone t) {c : Nat} (hc : t c < t (c + 1)) (p : Nat) (hp : p ≤ c) :
    ∑ r ∈ Finset.range (p + 1), piece t c p (c - p + r) = 1 := by
  refine eq_of_infinite_eval_eq _ _ ((Set.Ioo_infinite hc).mono fun x hx => ?_)
  have hin : InCell t (t (c + 1)) x c := by
    rw [InCell, if_pos hx.2]
    exact ⟨hx.1.le, hx.2⟩
  have := bspline_sum ht hin p (c - p) (by omega)
  simp only [bspline_eq_piece ht hin] at this
  simp only [Set.mem_setOf_eq, eval_finset_sum, eval_one]
  exact this

/-- The B-splines of a knot interval are linearly independent. -/
theorem piece_independent [IsStrictOrderedRing K] {t : Nat → K} (ht : Monotone t) {c : Nat} (hc : t c < t (c + 1)) :
    ∀ (p : Nat), p ≤ c → ∀ a : Nat → K, ∑ r ∈ Finset.range (p + 1), C (a r) * piece t c p (c - p + r) = 0 →
      ∀ r, r ≤ p → a r = 0 := by
  intro p
  induction p with
  | zero =>
    intro _ a h r hr
    obtain rfl : r = 0 := by omega
    simp only [zero_add, Finset.range_one, Finset.sum_singleton, Nat.sub_zero, add_zero, piece, if_true, mul_one] at h
    exact C_eq_zero.1 h
  | succ p ih =>
    intro hp a h
    have hd := congrArg derivative h
    simp only [Polynomial.derivative_sum, derivative_C_mul, derivative_piece ht, derivative_zero] at hd
    have hd' : ∑ r ∈ Finset.range (p + 1), C ((a (r + 1) - a r) * (((p + 1 : Nat) : K) *
        (1 / (t (c - p + r + p + 1) - t (c - p + r))))) * piece t c p (c - p + r) = 0 := by
      rw [← hd]
      simp only [mul_sub]
      rw [Finset.sum_sub_distrib, Finset.sum_range_succ' _ (p + 1), Finset.sum_range_succ _ (p + 1),
        piece_zero t c p (c - (p + 1) + 0) (by omega), piece_zero t c p (c - (p + 1) + (p + 1) + 1) (by omega)]
      simp only [mul_zero, add_zero]
      rw [← Finset.sum_sub_distrib]
      refine Finset.sum_congr rfl fun r _ => ?_
      rw [show c - (p + 1) + (r + 1) = c - p + r by omega, show c - (p + 1) + r + 1 = c - p + r by omega,
        show c - (p + 1) + r + p + 2 = c - p + r + p + 1 by omega]
      simp only [C_mul, C_sub]
      ring
    have heq := ih (by omega) _ hd'
    have hstep : ∀ r, r ≤ p → a (r + 1) = a r := by
      intro r hr
      have := heq r hr
      rcases mul_eq_zero.1 this with h1 | h1
      · exact sub_eq_zero.1 h1
      · exfalso
        rcases mul_eq_zero.1 h1 with h2 | h2
        · exact absurd h2 (by exact_mod_cast Nat.succ_ne_zero p)
        · have h3 : t (c - p + r) < t (c - p + r + p + 1) := knots_lt ht hc (by omega) (by omega)
          rw [one_div, inv_eq_zero] at h2
          exact absurd (sub_eq_zero.1 h2) h3.ne'
    have hall : ∀ r, r ≤ p + 1 → a r = a 0 := by
      intro r
      induction r with
      | zero => intro _; rfl
      | succ r ihr =>
        intro hr
        rw [hstep r (by omega), ihr (by omega)]
    have h0 : a 0 = 0 := by
      have e : ∑ r ∈ Finset.range (p + 1 + 1), C (a r) * piece t c (p + 1) (c - (p + 1) + r) =
          C (a 0) * ∑ r ∈ Finset.range (p + 1 + 1), piece t c (p + 1) (c - (p + 1) + r) := by
        rw [Finset.mul_sum]
        refine Finset.sum_congr rfl fun r hr => ?_
        rw [hall r (by have := Finset.mem_range.1 hr; omega)]
      rw [e, piece_sum ht hc (p + 1) hp, mul_one] at h
      exact C_eq_zero.1 h
    intro r hr
    rw [hall r hr, h0]

/-- The piece on the interval `c` of the spline with the coefficients `x`. -/
noncomputable def splinePiece (t : Nat → K) (p N : Nat) (x : Nat → K) (c : Nat) : K[X] :=
  ∑ J ∈ Finset.range N, C (x J) * piece t c p J

theorem splinePiece_deriv (t : Nat → K) (p N : Nat) (x : Nat → K) (c k : Nat) (y : K) :
    (derivative^[k] (splinePiece t p N x c)).eval y = ∑ J ∈ Finset.range N, x J * basisDeriv t p c k J y := by
  rw [splinePiece, iterate_derivative_sum, eval_finset_sum]
  refine Finset.sum_congr rfl fun J _ => ?_
  rw [iterate_derivative_C_mul, eval_mul, eval_C, basisDeriv]

theorem splinePiece_eval {t : Nat → K} (ht : Monotone t) {b y : K} {c : Nat} (hc : InCell t b y c) (p N : Nat) (x : Nat → K) :
    (splinePiece t p N x c).eval y = ∑ J ∈ Finset.range N, x J * bspline t b p J y := by
  rw [splinePiece, eval_finset_sum]
  refine Finset.sum_congr rfl fun J _ => ?_
  rw [eval_mul, eval_C, bspline_eq_piece ht hc]

/-- If a piece is zero, so are its coefficients. -/
theorem splinePiece_zero [IsStrictOrderedRing K] {t : Nat → K} (ht : Monotone t) {c p N : Nat} (hc : t c < t (c + 1))
    (hp : p ≤ c) (hN : c < N) {x : Nat → K} (h : splinePiece t p N x c = 0) {J : Nat} (h1 : c ≤ J + p) (h2 : J ≤ c) :
    x J = 0 := by
  have := piece_independent ht hc p hp (fun r => x (c - p + r)) (by
    have e : ∑ J ∈ Finset.range N, C (x J) * piece t c p J = 0 := h
    have eN : N = (c - p) + (p + 1) + (N - (c + 1)) := by omega
    rw [eN, Finset.sum_range_add, Finset.sum_range_add _ (c - p) (p + 1)] at e
    rw [Finset.sum_eq_zero (s := Finset.range (c - p)) fun j hj => by
        have := Finset.mem_range.1 hj
        rw [piece_zero t c p _ (by omega), mul_zero], zero_add,
      Finset.sum_eq_zero (s := Finset.range (N - (c + 1))) fun j hj => by
        rw [piece_zero t c p _ (by omega), mul_zero], add_zero] at e
    exact e) (J - (c - p)) (by omega)
  rwa [show c - p + (J - (c - p)) = J by omega] at this

end

open Zeros in
/-- The Schoenberg–Whitney theorem: `e0 + μ` conditions at the lower end, `e1 + ν` at the upper end, and the
conditions `k0 ≤ k < k1` at points `y k` inside the supports of the B-splines `k`. -/
theorem schoenberg_whitney {t : Nat → ℝ} (ht : Monotone t) {A B p N : Nat} (hp : 0 < p)
    (hst : ∀ c, A ≤ c → c < B → t c < t (c + 1)) {x : Nat → ℝ} {k0 k1 : Nat} {y : Nat → ℝ}
    (hy : ∀ k, k0 ≤ k → k < k1 → t A < y k ∧ y k < t B ∧ t k < y k ∧ y k < t (k + p + 1) ∧
      ∀ c, A ≤ c → c < B → t c ≤ y k → y k < t (c + 1) → (splinePiece t p N x c).eval (y k) = 0)
    (hinc : ∀ i j, k0 ≤ i → i < j → j < k1 → y i < y j) {e0 e1 μ ν : Nat}
    (he0 : e0 = 0 ∨ e0 = 1 ∧ (splinePiece t p N x A).eval (t A) = 0)
    (he1 : e1 = 0 ∨ e1 = 1 ∧ (splinePiece t p N x (B - 1)).eval (t B) = 0) (hμ : μ < p) (hν : ν < p)
    (h0 : ∀ k, k < μ → (derivative^[k + 1] (splinePiece t p N x A)).eval (t A) = 0)
    (h1 : ∀ k, k < ν → (derivative^[k + 1] (splinePiece t p N x (B - 1))).eval (t B) = 0) (hk0 : k0 + p ≤ e0 + μ + A)
    (hk1 : B ≤ k1 + (e1 + ν)) (hv : 0 < (k1 - k0) + e0 + e1) : ∀ c, A ≤ c → c < B → splinePiece t p N x c = 0 := by
  refine pw_zero ht hp (fun c h1 h2 k hk => ?_) hst (fun c => ?_) hy hinc he0 he1 hμ hν h0 h1 hk0 hk1 hv
  · rw [splinePiece_deriv, splinePiece_deriv]
    refine Finset.sum_congr rfl fun J _ => ?_
    rw [basisDeriv, basisDeriv, piece_smooth ht (hst c h1 (by omega)) (hst (c + 1) (by omega) h2) hk]
  · refine natDegree_sum_le_of_forall_le _ _ fun J _ => ?_
    exact (natDegree_C_mul_le _ _).trans (natDegree_piece t c p J)

end DDC.Spec
