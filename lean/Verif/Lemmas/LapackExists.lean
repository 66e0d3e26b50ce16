import Verif.Spec.Linear
import Mathlib.LinearAlgebra.Matrix.ToLinearEquiv
import Mathlib.Algebra.BigOperators.Fin

/-!
# The contract of the direct solvers can be met
-/

namespace DDC

variable {K : Type} [Field K]

theorem solves_fin (t : Bool) (n : Nat) (A : Nat → Nat → K) (x b : Nat → K) :
    Solves t n A x b ↔ (if t then (Matrix.of fun i j : Fin n => A i j).transpose
      else Matrix.of fun i j : Fin n => A i j).mulVec (fun j : Fin n => x j) = fun i : Fin n => b i := by
  constructor
  · intro h
    funext i
    rw [← h i i.2, ← Fin.sum_univ_eq_sum_range (fun j => (if t then A j i else A i j) * x j)]
    cases t <;> rfl
  · intro h i hi
    have := congrFun h ⟨i, hi⟩
    simp only at this
    rw [← this, ← Fin.sum_univ_eq_sum_range (fun j => (if t then A j i else A i j) * x j)]
    cases t <;> rfl

theorem Regular.det {n : Nat} {A : Nat → Nat → K} (h : Regular n A) :
    (Matrix.of fun i j : Fin n => A i j).det ≠ 0 := by
  intro h0
  obtain ⟨v, hv, h1⟩ := Matrix.exists_mulVec_eq_zero_iff.2 h0
  refine hv (funext fun j => ?_)
  have h2 := h (fun j => if hj : j < n then v ⟨j, hj⟩ else 0) ?_ j j.2
  · simpa using h2
  · rw [solves_fin]
    simp only [Bool.false_eq_true, if_false, Fin.is_lt, dif_pos]
    exact h1

/-- A regular system has a solution. -/
theorem Regular.exists_solves {n : Nat} {A : Nat → Nat → K} (h : Regular n A) (t : Bool) (b : Nat → K) :
    ∃ x, Solves t n A x b := by
  have key : ∃ M : Matrix (Fin n) (Fin n) K, M = (if t then (Matrix.of fun i j : Fin n => A i j).transpose
      else Matrix.of fun i j : Fin n => A i j) ∧ M.det ≠ 0 := by
    refine ⟨_, rfl, ?_⟩
    cases t
    · exact h.det
    · simp only [if_true, Matrix.det_transpose]; exact h.det
  obtain ⟨M, hM, hd⟩ := key
  refine ⟨fun j => if hj : j < n then M⁻¹.mulVec (fun i : Fin n => b i) ⟨j, hj⟩ else 0, ?_⟩
  rw [solves_fin, ← hM]
  simp only [Fin.is_lt, dif_pos]
  show M.mulVec (M⁻¹.mulVec fun i : Fin n => b i) = _
  rw [Matrix.mulVec_mulVec, Matrix.mul_nonsing_inv _ (isUnit_iff_ne_zero.2 hd), Matrix.one_mulVec]

open Classical in
/-- Direct solvers that meet the contract. -/
noncomputable def exactLapack (K : Type) [Field K] [LinearOrder K] : Lapack K where
  regular n A := decide (Regular n A)
  posDef n A := decide (PosDef n A)
  solve t n A b := if h : ∃ x, Solves t n A x b then h.choose else b

theorem exactLapack_exact (K : Type) [Field K] [LinearOrder K] : (exactLapack K).Exact where
  regular n A := by simp [exactLapack]
  posDef n A := by simp [exactLapack]
  solve t n A b h := by
    have := h.exists_solves t b
    simp only [exactLapack, dif_pos this]
    exact this.choose_spec

end DDC
