import Verif.Model.Sampling

/-!
# Tagged vectors: coordinates

Model of `/repo/src/ddc/detail/tagged_vector.hpp` beyond what `Verif.Model.Tuple` already has (`get`,
`get_or`, `take`, the merging constructor, `select`).  The element types and their operations are
arbitrary, so rounding is allowed; exceptions are overflows of signed integers, which are not
modelled: the library only uses tagged vectors of real numbers.
-/

namespace DDC.TaggedVector

open Tup

variable {τ α β γ : Type} [DecidableEq τ]

/-- `TaggedVector<ElementType, Tags...>(delems...)` (tagged_vector.hpp lines 259-263): `conv` is
`static_cast<ElementType>`.  Simplification: the arguments have a common element type. -/
def ofVectors (conv : β → α) (qs : List τ) (xs : List (Tup τ β)) : Res (Tup τ α) := do
  let r ← ofTuples qs xs
  mapVals (fun v => .ok (conv v)) r

/-- `TaggedVector<ElementType, Tags...>(params...)` (tagged_vector.hpp lines 265-270): one parameter
for each tag, in order. -/
def ofValues (conv : β → α) (qs : List τ) (params : List β) : Res (Tup τ α) :=
  if params.length = qs.length then .ok (qs.zip (params.map conv)) else .ill

/-- Unary `+` (tagged_vector.hpp lines 82-87). -/
def pos (x : Tup τ α) : Tup τ α := x

/-- Unary `-` (tagged_vector.hpp lines 89-94). -/
def neg [Neg α] (x : Tup τ α) : Res (Tup τ α) := mapVals (fun v => .ok (-v)) x

/-- `lhs + rhs` (tagged_vector.hpp lines 98-106). -/
def add [HAdd α β γ] (x : Tup τ α) (y : Tup τ β) : Res (Tup τ γ) := do
  Res.guardIll (TypeSeq.same x.tags y.tags)
  zipVals (fun v w => .ok (v + w)) x y

/-- `lhs - rhs` (tagged_vector.hpp lines 128-136). -/
def sub [HSub α β γ] (x : Tup τ α) (y : Tup τ β) : Res (Tup τ γ) := do
  Res.guardIll (TypeSeq.same x.tags y.tags)
  zipVals (fun v w => .ok (v - w)) x y

/-- `vector + scalar`, one tag (tagged_vector.hpp lines 108-116). -/
def addScalar [HAdd α β γ] (x : Tup τ α) (s : β) : Res (Tup τ γ) :=
  match x with
  | [(t, v)] => .ok [(t, v + s)]
  | _ => .ill

/-- `scalar + vector`, one tag (tagged_vector.hpp lines 118-126). -/
def scalarAdd [HAdd β α γ] (s : β) (x : Tup τ α) : Res (Tup τ γ) :=
  match x with
  | [(t, v)] => .ok [(t, s + v)]
  | _ => .ill

/-- `vector - scalar`, one tag (tagged_vector.hpp lines 138-146). -/
def subScalar [HSub α β γ] (x : Tup τ α) (s : β) : Res (Tup τ γ) :=
  match x with
  | [(t, v)] => .ok [(t, v - s)]
  | _ => .ill

/-- `scalar - vector`, one tag (tagged_vector.hpp lines 148-156). -/
def scalarSub [HSub β α γ] (s : β) (x : Tup τ α) : Res (Tup τ γ) :=
  match x with
  | [(t, v)] => .ok [(t, s - v)]
  | _ => .ill

/-- `scalar * vector` (tagged_vector.hpp lines 160-168). -/
def smul [HMul β α γ] (s : β) (x : Tup τ α) : Res (Tup τ γ) := mapVals (fun v => .ok (s * v)) x

/-- `operator[](pos)` (tagged_vector.hpp lines 290-298). -/
def at' (x : Tup τ α) (pos : Nat) : Res α :=
  match x.vals[pos]? with
  | some v => .ok v
  | none => .ub

/-- `value()` and the conversions to the element type, one tag (tagged_vector.hpp lines 221-231,
343-347). -/
def value (x : Tup τ α) : Res α :=
  match x with
  | [(_, v)] => .ok v
  | _ => .ill

/-- `operator==` (tagged_vector.hpp lines 300-305), `cmp` being `==` on the element types. -/
def eq (cmp : α → β → Bool) : Tup τ α → Tup τ β → Res Bool
  | [], _ => .ok true
  | (t, v) :: l, r =>
    do
      let w ← get t r
      let b ← eq cmp l r
      pure (cmp v w && b)

/-- `operator!=` (tagged_vector.hpp lines 307-315, or its synthesis by the compiler). -/
def ne (cmp : α → β → Bool) (x : Tup τ α) (y : Tup τ β) : Res Bool := do
  let b ← eq cmp x y
  pure !b

/-- The fold `((m_values[rank<Tags>] op= <operand for Tags>), ...)` over the tags `qs` of the vector
itself; the operand is evaluated at each step, on the vector as it is by then. -/
def foldAssign (op : α → α → α) (operand : τ → Tup τ α → Res α) : List τ → Tup τ α → Res (Tup τ α)
  | [], x => .ok x
  | q :: qs, x =>
    do
      let w ← operand q x
      let x' ← modify q (fun v => .ok (op v w)) x
      foldAssign op operand qs x'

/-- What a compound assignment takes by reference: something else or (a part of) the vector that is
assigned. -/
inductive Ref (α β : Type)
  | other (y : α)
  | own (p : β)

/-- `lhs op= rhs` between vectors, `op` one of `+`, `-`, `*` (tagged_vector.hpp lines 349-356, 365-372,
381-388); `rhs` may be `lhs`.  Simplification: one element type. -/
def assign (op : α → α → α) (x : Tup τ α) (rhs : Ref (Tup τ α) Unit) : Res (Tup τ α) :=
  match rhs with
  | .other y => do
    Res.guardIll (TypeSeq.same x.tags y.tags)
    foldAssign op (fun q _ => get q y) x.tags x
  | .own () => foldAssign op (fun q x' => get q x') x.tags x

/-- `lhs op= scalar`, `op` one of `+`, `-` (tagged_vector.hpp lines 358-363, 374-379): the scalar is
taken by reference, and may be the component of `lhs` of some tag. -/
def assignScalar (op : α → α → α) (x : Tup τ α) (rhs : Ref α τ) : Res (Tup τ α) :=
  match rhs with
  | .other s => foldAssign op (fun _ _ => .ok s) x.tags x
  | .own p => foldAssign op (fun _ x' => get p x') x.tags x

/-- `operator<<` (tagged_vector.hpp lines 391-410), `fmt` being that of the element type. -/
def print (fmt : α → List Char) (x : Tup τ α) : List Char :=
  match x.vals with
  | [] => ['('] ++ [')']
  | v :: l => ['('] ++ fmt v ++ l.flatMap (fun w => [',', ' '] ++ fmt w) ++ [')']

end DDC.TaggedVector
