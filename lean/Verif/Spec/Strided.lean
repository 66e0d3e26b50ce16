import Verif.Model.Strided
import Verif.Spec.Domain

/-!
# Specification vocabulary for strided domains

Along each tag a strided domain stands for the arithmetic progression
`first + k * step`, `0 ≤ k < count`.
-/

namespace DDC.Spec

variable {τ : Type} [DecidableEq τ]

/-- First index along a tag. -/
def first (q : τ) (d : SDom τ) : Nat :=
  match Tup.get q d with
  | .ok (b, _, _) => b.toNat
  | _ => 0

/-- Number of points along a tag. -/
def count (q : τ) (d : SDom τ) : Int :=
  match Tup.get q d with
  | .ok (_, n, _) => n.toInt
  | _ => 0

/-- Step along a tag. -/
def step (q : τ) (d : SDom τ) : Int :=
  match Tup.get q d with
  | .ok (_, _, s) => s.toInt
  | _ => 0

/-- A strided domain with non-negative extents and positive strides whose past-the-end
index is representable. -/
def SValid (d : SDom τ) : Prop :=
  (Tup.tags d).Nodup ∧ ∀ q ∈ Tup.tags d, 0 ≤ count q d ∧ 1 ≤ step q d ∧
    count q d * step q d < 2 ^ 63 ∧ first q d + count q d * step q d < 2 ^ 64

/-- The integer `i` is a term of the progression along tag `q`. -/
def OnGrid (q : τ) (d : SDom τ) (i : Int) : Prop :=
  ∃ k : Int, 0 ≤ k ∧ k < count q d ∧ i = first q d + k * step q d

/-- The point `e` belongs to the product of the progressions. -/
def InGrid (d : SDom τ) (e : Elem τ) : Prop := ∀ q ∈ Tup.tags d, OnGrid q d (idx q e)

end DDC.Spec
