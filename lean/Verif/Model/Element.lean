import Verif.Model.Tuple

/-!
# DiscreteElement and DiscreteVector arithmetic

Model of `/repo/src/ddc/discrete_element.hpp` and `/repo/src/ddc/discrete_vector.hpp`
on 64-bit machine integers.
-/

namespace DDC

/-- `DiscreteElement<Tags...>` (discrete_element.hpp lines 162-178):
`std::array<std::size_t, N>`. -/
abbrev Elem (τ : Type) := Tup τ U64

/-- `DiscreteVector<Tags...>` (discrete_vector.hpp lines 269-286):
`std::array<std::ptrdiff_t, N>`. -/
abbrev Vect (τ : Type) := Tup τ I64

/-! ## Machine arithmetic -/

/-- Result of a `ptrdiff_t` operation whose mathematical value is `z`: that value
when representable, undefined behaviour otherwise (C++20 [expr.pre]/4). -/
def signedRes (z : Int) : Res I64 :=
  if -2 ^ 63 ≤ z ∧ z < 2 ^ 63 then .ok (BitVec.ofInt 64 z) else .ub

/-- `a + b` on `ptrdiff_t`. -/
def sAdd (a b : I64) : Res I64 := signedRes (a.toInt + b.toInt)
/-- `a - b` on `ptrdiff_t`. -/
def sSub (a b : I64) : Res I64 := signedRes (a.toInt - b.toInt)
/-- `a * b` on `ptrdiff_t`. -/
def sMul (a b : I64) : Res I64 := signedRes (a.toInt * b.toInt)
/-- `-a` on `ptrdiff_t`. -/
def sNeg (a : I64) : Res I64 := signedRes (-a.toInt)
/-- `a < b` on `ptrdiff_t`. -/
def sLt (a b : I64) : Bool := decide (a.toInt < b.toInt)

namespace Elem

variable {τ : Type} [DecidableEq τ]

/-- `create_reference_discrete_element<DDim>()` (discrete_element.hpp lines 152-156). -/
def createReference (t : τ) : Elem τ := [(t, 0)]

/-- `lhs += DiscreteVector` and `lhs + DiscreteVector`
(discrete_element.hpp lines 279-285, 379-389).  `size_t += ptrdiff_t` converts the
right operand to `size_t`, i.e. adds modulo `2^64`. -/
def addVec (e : Elem τ) (v : Vect τ) : Res (Elem τ) :=
  Tup.opAssign (fun (a : U64) (x : I64) => Res.ok (a + x)) e v

/-- `lhs -= DiscreteVector` and `lhs - DiscreteVector`
(discrete_element.hpp lines 295-301, 402-412). -/
def subVec (e : Elem τ) (v : Vect τ) : Res (Elem τ) :=
  Tup.opAssign (fun (a : U64) (x : I64) => Res.ok (a - x)) e v

/-- `lhs += integer` and `lhs + integer`, only for one tag
(discrete_element.hpp lines 287-293, 391-400). -/
def addInt (e : Elem τ) (x : I64) : Res (Elem τ) :=
  match e with
  | [(t, v)] => .ok [(t, v + x)]
  | _ => .ill

/-- `lhs -= integer` and `lhs - integer`, only for one tag
(discrete_element.hpp lines 303-309, 414-423). -/
def subInt (e : Elem τ) (x : I64) : Res (Elem τ) :=
  match e with
  | [(t, v)] => .ok [(t, v - x)]
  | _ => .ill

/-- `++e` (discrete_element.hpp lines 249-262): new value of `e`. -/
def inc (e : Elem τ) : Res (Elem τ) :=
  match e with
  | [(t, v)] => .ok [(t, v + 1)]
  | _ => .ill

/-- `--e` (discrete_element.hpp lines 264-277): new value of `e`. -/
def dec (e : Elem τ) : Res (Elem τ) :=
  match e with
  | [(t, v)] => .ok [(t, v - 1)]
  | _ => .ill

/-- `e++` (discrete_element.hpp lines 256-262): returned value and new value. -/
def postInc (e : Elem τ) : Res (Elem τ × Elem τ) := do
  let e' ← inc e
  pure (e, e')

/-- `e--` (discrete_element.hpp lines 271-277): returned value and new value. -/
def postDec (e : Elem τ) : Res (Elem τ × Elem τ) := do
  let e' ← dec e
  pure (e, e')

/-- `DiscreteElement - DiscreteElement` (discrete_element.hpp lines 425-434):
`size_t` subtraction modulo `2^64`, converted to `ptrdiff_t` (same bits, C++20). -/
def sub (a b : Elem τ) : Res (Vect τ) := do
  Res.guardIll (TypeSeq.same a.tags b.tags)
  Tup.zipVals (fun (x y : U64) => Res.ok (x - y)) a b

/-- `operator==` (discrete_element.hpp lines 326-332). -/
def eq (a b : Elem τ) : Res Bool := Tup.eqFold a b

/-- `operator<` for one common tag (discrete_element.hpp lines 345-351). -/
def lt (a b : Elem τ) : Res Bool :=
  match a, b with
  | [(s, x)], [(t, y)] => if s = t then .ok (decide (x < y)) else .ill
  | _, _ => .ill

/-- `operator<=` for one common tag (discrete_element.hpp lines 353-359). -/
def le (a b : Elem τ) : Res Bool :=
  match a, b with
  | [(s, x)], [(t, y)] => if s = t then .ok (decide (x ≤ y)) else .ill
  | _, _ => .ill

/-- `operator>` for one common tag (discrete_element.hpp lines 361-367). -/
def gt (a b : Elem τ) : Res Bool :=
  match a, b with
  | [(s, x)], [(t, y)] => if s = t then .ok (decide (x > y)) else .ill
  | _, _ => .ill

/-- `operator>=` for one common tag (discrete_element.hpp lines 369-375). -/
def ge (a b : Elem τ) : Res Bool :=
  match a, b with
  | [(s, x)], [(t, y)] => if s = t then .ok (decide (x ≥ y)) else .ill
  | _, _ => .ill

end Elem

namespace Vect

variable {τ : Type} [DecidableEq τ]

/-- Unary `-` (discrete_vector.hpp lines 101-105). -/
def neg (v : Vect τ) : Res (Vect τ) := Tup.mapVals sNeg v

/-- `lhs += rhs` (discrete_vector.hpp lines 411-417). -/
def addAssign (v w : Vect τ) : Res (Vect τ) := Tup.opAssign sAdd v w

/-- `lhs -= rhs` (discrete_vector.hpp lines 427-433). -/
def subAssign (v w : Vect τ) : Res (Vect τ) := Tup.opAssign sSub v w

/-- `lhs *= rhs` (discrete_vector.hpp lines 443-449). -/
def mulAssign (v w : Vect τ) : Res (Vect τ) := Tup.opAssign sMul v w

/-- `lhs + rhs` (discrete_vector.hpp lines 109-126): the longer pack decides the
type of the result. -/
def add (v w : Vect τ) : Res (Vect τ) :=
  if w.length ≤ v.length then addAssign v w else addAssign w v

/-- `lhs - rhs` (discrete_vector.hpp lines 128-145). -/
def sub (v w : Vect τ) : Res (Vect τ) :=
  if w.length ≤ v.length then subAssign v w
  else do
    let r ← neg w
    addAssign r v

/-- `integer * v` (discrete_vector.hpp lines 181-187). -/
def smul (k : I64) (v : Vect τ) : Res (Vect τ) := Tup.mapVals (fun x => sMul k x) v

/-- `v + integer` for one tag (discrete_vector.hpp lines 147-153, 419-425). -/
def addInt (v : Vect τ) (x : I64) : Res (Vect τ) :=
  match v with
  | [(t, a)] => do
    let r ← sAdd a x
    pure [(t, r)]
  | _ => .ill

/-- `v - integer` for one tag (discrete_vector.hpp lines 163-169, 435-441). -/
def subInt (v : Vect τ) (x : I64) : Res (Vect τ) :=
  match v with
  | [(t, a)] => do
    let r ← sSub a x
    pure [(t, r)]
  | _ => .ill

/-- `integer + v` for one tag (discrete_vector.hpp lines 155-161). -/
def intAdd (x : I64) (v : Vect τ) : Res (Vect τ) :=
  match v with
  | [(t, a)] => do
    let r ← sAdd x a
    pure [(t, r)]
  | _ => .ill

/-- `integer - v` for one tag (discrete_vector.hpp lines 171-177). -/
def intSub (x : I64) (v : Vect τ) : Res (Vect τ) :=
  match v with
  | [(t, a)] => do
    let r ← sSub x a
    pure [(t, r)]
  | _ => .ill

/-- `++v` (discrete_vector.hpp lines 381-394). -/
def inc (v : Vect τ) : Res (Vect τ) := addInt v 1

/-- `--v` (discrete_vector.hpp lines 396-409). -/
def dec (v : Vect τ) : Res (Vect τ) := subInt v 1

/-- `operator==` (discrete_vector.hpp lines 333-337). -/
def eq (v w : Vect τ) : Res Bool := Tup.eqFold v w

/-- `operator<` for one common tag (discrete_vector.hpp lines 452-458). -/
def lt (v w : Vect τ) : Res Bool :=
  match v, w with
  | [(s, x)], [(t, y)] => if s = t then .ok (sLt x y) else .ill
  | _, _ => .ill

end Vect
end DDC
