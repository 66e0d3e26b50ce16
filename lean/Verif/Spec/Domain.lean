import Verif.Model.Domain

/-!
# Specification vocabulary for domains

A domain is understood as a box: for each tag an interval of natural numbers.
Only the accessor `get` (the C++ `uid<Q>()`/`get<Q>()`) of the model is used.
-/

namespace DDC.Spec

variable {τ : Type} [DecidableEq τ]

/-- Index of an element along a tag, as a natural number. -/
def idx (q : τ) (e : Elem τ) : Nat :=
  match Tup.get q e with
  | .ok x => x.toNat
  | _ => 0

/-- Displacement of a vector along a tag, as an integer. -/
def disp (q : τ) (v : Vect τ) : Int :=
  match Tup.get q v with
  | .ok x => x.toInt
  | _ => 0

/-- Lower bound of a domain along a tag. -/
def lo (q : τ) (d : Dom τ) : Nat :=
  match Tup.get q d with
  | .ok (b, _) => b.toNat
  | _ => 0

/-- Upper bound (excluded) of a domain along a tag. -/
def hi (q : τ) (d : Dom τ) : Nat :=
  match Tup.get q d with
  | .ok (_, e) => e.toNat
  | _ => 0

/-- Number of points along a tag. -/
def len (q : τ) (d : Dom τ) : Nat := hi q d - lo q d

/-- A domain whose bounds are ordered and whose extents are representable as
`ptrdiff_t`: what `DiscreteDomain(front, extents)` produces from non-negative
extents when `front + extents` does not exceed the range of `size_t`. -/
def Valid (d : Dom τ) : Prop :=
  (Tup.tags d).Nodup ∧ ∀ q ∈ Tup.tags d, lo q d ≤ hi q d ∧ len q d < 2 ^ 63

/-- The point `e` lies in the box `d`. -/
def InBox (d : Dom τ) (e : Elem τ) : Prop :=
  ∀ q ∈ Tup.tags d, lo q d ≤ idx q e ∧ idx q e < hi q d

/-- Total number of points of the box. -/
def card (d : Dom τ) : Nat := ((Tup.tags d).map (fun q => len q d)).prod

/-- Same set of tags. -/
def SameTags {α β : Type} (x : Tup τ α) (y : Tup τ β) : Prop := (Tup.tags x).Perm (Tup.tags y)

end DDC.Spec
