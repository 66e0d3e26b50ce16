import Verif.Model.Linear
import Mathlib.Algebra.BigOperators.Group.Finset.Basic
import Mathlib.Data.List.ProdSigma

/-!
# Which entries of a linear problem are stored

The specification of the storages: which positions can hold any value, and which positions share one
value (the two sides of the diagonal of a symmetric matrix).
-/

namespace DDC.LinProb

variable {K : Type}

/-- Positions that are stored; the others always hold zero. -/
def Stored : LinProb K → Nat → Nat → Prop
  | dense _ _, _, _ => True
  | band _ kl ku _, i, j => j ≤ i + ku.toNat ∧ i ≤ j + kl.toNat
  | pdsBand _ ext _, i, j => i < j + ext.toNat ∧ j < i + ext.toNat
  | pdsTridiag _ _, i, j => i ≤ j + 1 ∧ j ≤ i + 1
  | blocks2 _ tl _ _ _ _, i, j => i < tl.size.toNat → j < tl.size.toNat → Stored tl i j
  | blocks3 _ top tl _ _ _ _, i, j => top.toNat ≤ i → i < top.toNat + tl.size.toNat → top.toNat ≤ j →
    j < top.toNat + tl.size.toNat → Stored tl (i - top.toNat) (j - top.toNat)

/-- Two positions share one value. -/
def Same : LinProb K → Nat × Nat → Nat × Nat → Prop
  | dense _ _, x, y => x = y
  | band _ _ _ _, x, y => x = y
  | pdsBand _ _ _, x, y => x = y ∨ x = y.swap
  | pdsTridiag _ _, x, y => x = y ∨ x = y.swap
  | blocks2 _ tl _ _ _ _, x, y => x = y ∨
    (x.1 < tl.size.toNat ∧ x.2 < tl.size.toNat ∧ y.1 < tl.size.toNat ∧ y.2 < tl.size.toNat ∧ Same tl x y)
  | blocks3 _ top tl _ _ _ _, x, y => x = y ∨
    (top.toNat ≤ x.1 ∧ x.1 < top.toNat + tl.size.toNat ∧ top.toNat ≤ x.2 ∧ x.2 < top.toNat + tl.size.toNat ∧
      top.toNat ≤ y.1 ∧ y.1 < top.toNat + tl.size.toNat ∧ top.toNat ≤ y.2 ∧ y.2 < top.toNat + tl.size.toNat ∧
      Same tl (x.1 - top.toNat, x.2 - top.toNat) (y.1 - top.toNat, y.2 - top.toNat))

end DDC.LinProb

namespace DDC

/-- The iterations of a parallel loop are executed once each, in any order. -/
structure Sched.Valid (σ : Sched) : Prop where
  cols : ∀ n, (σ.cols n).Perm (List.range n)
  pairs : ∀ n, (σ.pairs n).Perm ((List.range n).product (List.range n))

variable {K : Type} [Field K]

/-- `x` is the solution of `A x = b`, or of `Aᵗ x = b`, of size `n`. -/
def Solves (transpose : Bool) (n : Nat) (A : Nat → Nat → K) (x b : Nat → K) : Prop :=
  ∀ i, i < n → ∑ j ∈ Finset.range n, (if transpose then A j i else A i j) * x j = b i

/-- Only the zero vector is sent to zero. -/
def Regular (n : Nat) (A : Nat → Nat → K) : Prop :=
  ∀ x, Solves false n A x (fun _ => 0) → ∀ j, j < n → x j = 0

variable [LinearOrder K]

/-- Positive definite. -/
def PosDef (n : Nat) (A : Nat → Nat → K) : Prop :=
  ∀ x : Nat → K, (∃ i, i < n ∧ x i ≠ 0) →
    0 < ∑ i ∈ Finset.range n, ∑ j ∈ Finset.range n, x i * A i j * x j

/-- The contract of the external direct solvers, in exact arithmetic: the factorisation succeeds for the
regular matrices (for the positive definite ones), and then the system is solved. -/
structure Lapack.Exact (L : Lapack K) : Prop where
  regular : ∀ n A, L.regular n A = true ↔ Regular n A
  posDef : ∀ n A, L.posDef n A = true ↔ PosDef n A
  solve : ∀ transpose n A b, Regular n A → Solves transpose n A (L.solve transpose n A b) b

/-- The value that `get_element` shows. -/
def LinProb.shown (p : LinProb K) (i j : Nat) : K :=
  match p.get (BitVec.ofNat 64 i) (BitVec.ofNat 64 j) with
  | .ok v => v
  | _ => 0

/-- The rows `off …` of the right-hand sides are solved by `S`, which needs `extra` more rows; the
memory before and after is not touched. -/
def SolvesSystem (L : Lapack K) (S : Solver K) (n extra : Nat) (A : Nat → Nat → K) : Prop :=
  ∀ (σ : Sched), σ.Valid → ∀ (transpose : Bool) (off : Nat) (b : Mat K), off + (n + extra) ≤ b.rows →
    ∃ b', S.solve L σ transpose (n + extra) off b = .ok b' ∧ b'.rows = b.rows ∧ b'.cols = b.cols ∧
      (∀ c, c < b.cols → Solves transpose n A (fun j => b'.val (off + j) c) (fun i => b.val (off + i) c)) ∧
      ∀ r c, r < off ∨ off + (n + extra) ≤ r → b'.val r c = b.val r c

/-- No entry is small without being zero. -/
def NoTiny (m n : Nat) (X : Nat → Nat → K) : Prop :=
  ∀ i j, i < m → j < n → X i j = 0 ∨ 1 / 10 ^ 14 ≤ |X i j|

/-- The blocks that are stored in coordinate format, `λ` and `Q⁻¹ γ`, have no entry below the tolerance. -/
def LinProb.Clean : LinProb K → Prop
  | dense _ _ => True
  | band _ _ _ _ => True
  | pdsBand _ _ _ => True
  | pdsTridiag _ _ => True
  | blocks2 _ tl tr bl brn _ => Clean tl ∧ NoTiny brn.toNat tl.size.toNat bl.val ∧
    ∀ X : Nat → Nat → K, (∀ c, c < brn.toNat →
      Solves false tl.size.toNat tl.shown (fun k => X k c) (fun i => tr.val i c)) →
      NoTiny tl.size.toNat brn.toNat X
  | blocks3 _ _ tl tr bl brn _ => Clean tl ∧ NoTiny brn.toNat tl.size.toNat bl.val ∧
    ∀ X : Nat → Nat → K, (∀ c, c < brn.toNat →
      Solves false tl.size.toNat tl.shown (fun k => X k c) (fun i => tr.val i c)) →
      NoTiny tl.size.toNat brn.toNat X

/-- The number of additional rows of the right-hand sides. -/
def LinProb.extra : LinProb K → Nat
  | blocks3 _ top _ _ _ _ _ => top.toNat
  | _ => 0

end DDC
