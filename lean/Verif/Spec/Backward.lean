import Verif.Spec.Linear
import Verif.Spec.Float
import Verif.Model.RoundedLinear

/-!
# Residuals of the solvers of linear systems

What a solver that computes with rounding can promise: a small residual, relative to the size of the solution that it
computes.
-/

namespace DDC

open Finset

/-- The residuals of `A x = b`, or of `Aᵗ x = b`, of size `n` are at most `κ` times the sum of the absolute values of
`x`. -/
def SolvesWithin (transpose : Bool) (n : Nat) (A : Nat → Nat → Rat) (κ : Rat) (x b : Nat → Rat) : Prop :=
  ∀ i, i < n → |∑ j ∈ range n, (if transpose then A j i else A i j) * x j - b i| ≤ κ * ∑ j ∈ range n, |x j|

/-- The contract of the external direct solvers, with rounding: for the matrices whose factorisation succeeds the
residuals are at most `ρ n A` times the solution.  LAPACK documents such bounds, with `ρ n A` a multiple of the
round-off and of the norm of `A`. -/
structure Lapack.Backward (L : Lapack Rat) (ρ : Nat → (Nat → Nat → Rat) → Rat) : Prop where
  nonneg : ∀ n A, 0 ≤ ρ n A
  solve : ∀ transpose n A b, (L.regular n A = true ∨ L.posDef n A = true) →
    SolvesWithin transpose n A (ρ n A) (L.solve transpose n A b) b

/-- The rows `off …` of the right-hand sides are replaced by what solves the systems of `A` with residuals at most `κ`;
the memory before and after is not touched. -/
def SolvesSystemWithin (fl : Rat → Rat) (L : Lapack Rat) (S : Solver Rat) (n extra : Nat) (A : Nat → Nat → Rat) (κ : Rat) :
    Prop :=
  ∀ (σ : Sched), σ.Valid → ∀ (transpose : Bool) (off : Nat) (b : Mat Rat), off + (n + extra) ≤ b.rows →
    ∃ b', Rounded.solve fl L σ S transpose (n + extra) off b = .ok b' ∧ b'.rows = b.rows ∧ b'.cols = b.cols ∧
      (∀ c, c < b.cols → SolvesWithin transpose n A κ (fun j => b'.val (off + j) c) (fun i => b.val (off + i) c)) ∧
      ∀ r c, r < off ∨ off + (n + extra) ≤ r → b'.val r c = b.val r c

/-- The sum of the absolute values of the non-zeros of a column. -/
def Coo.colSum (a : Coo Rat) (c : Nat) : Rat := (a.entries.map fun e => if e.2.1 = c then |e.2.2| else 0).sum

/-- `B` bounds the sums of the columns of what was computed for `Q⁻¹ γ`. -/
def Solver.ColsBound (B : Rat) : Solver Rat → Prop
  | blocks2 _ tl tr _ brn _ => ColsBound B tl ∧ ∀ c, c < brn → tr.colSum c ≤ B
  | blocks3 _ _ tl tr _ brn _ => ColsBound B tl ∧ ∀ c, c < brn → tr.colSum c ≤ B
  | _ => True

/-- The residual of block elimination: `ρq` for the main block of size `nq`, `ρs` for the Schur complement, `n` the size,
`a` the greatest absolute value of the matrix. -/
def blockResidual (n nq : Nat) (ρq ρs a B : Rat) : Rat :=
  (4 * (ρq + ρs) + 5 * a * (n + 2) / 2 ^ 53 + 2 * (1 + a * nq) * (11 / 10 ^ 15)) * (1 + (B + nq * (11 / 10 ^ 15)))

/-- The residual of a solver. -/
def Solver.residual (ρ : Nat → (Nat → Nat → Rat) → Rat) (a B : Rat) : Solver Rat → Rat
  | getrs n A => ρ n A
  | gbtrs n A => ρ n A
  | pbtrs n A => ρ n A
  | pttrs n A => ρ n A
  | blocks2 n tl _ _ brn br => blockResidual n tl.size (residual ρ a B tl) (ρ brn br) a B
  | blocks3 n _ tl _ _ brn br => blockResidual n tl.size (residual ρ a B tl) (ρ brn br) a B

end DDC
