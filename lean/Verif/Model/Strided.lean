import Verif.Model.Domain

/-!
# StridedDiscreteDomain

Model of `/repo/src/ddc/strided_discrete_domain.hpp`.  The three data members
`m_element_begin`, `m_extents`, `m_strides` (lines 88-92) are stored zipped: the
list of `(tag, (begin, extent, stride))` in pack order.  The specialisation
`StridedDiscreteDomain<>` (lines 316-460) is the empty list.
-/

namespace DDC

/-- `StridedDiscreteDomain<DDims...>` (strided_discrete_domain.hpp lines 72-314). -/
abbrev SDom (τ : Type) := Tup τ (U64 × I64 × I64)

namespace SDom

variable {τ : Type} [DecidableEq τ]

/-- `m_element_begin`, also `front()` (strided_discrete_domain.hpp lines 88, 177-180). -/
def front (d : SDom τ) : Elem τ := d.map (fun p => (p.1, p.2.1))
/-- `m_extents`, also `extents()` (lines 90, 161-164). -/
def extents (d : SDom τ) : Vect τ := d.map (fun p => (p.1, p.2.2.1))
/-- `m_strides`, also `strides()` (lines 92, 166-169). -/
def strides (d : SDom τ) : Vect τ := d.map (fun p => (p.1, p.2.2.2))

/-- A domain from its data members with the class `static_assert` (lines 78-92). -/
def mk (b : Elem τ) (n s : Vect τ) : Res (SDom τ) := do
  Res.guardIll (TypeSeq.isUnique b.tags)
  let ns ← Tup.zipVals (fun x y => Res.ok (x, y)) n s
  Tup.zipVals (fun x y => Res.ok (x, y)) b ns

/-- `StridedDiscreteDomain(element_begin, extents, strides)` (lines 116-124). -/
def ofSize (b : Elem τ) (n s : Vect τ) : Res (SDom τ) := do
  Res.guardIll (decide (b.tags = n.tags))
  Res.guardIll (decide (b.tags = s.tags))
  mk b n s

/-- The merging constructor (lines 102-109). -/
def ofDomains (qs : List τ) (ds : List (SDom τ)) : Res (SDom τ) := do
  let b ← Tup.ofTuples qs (ds.map front)
  let n ← Tup.ofTuples qs (ds.map extents)
  let s ← Tup.ofTuples qs (ds.map strides)
  mk b n s

/-- `prod(lhs, rhs)` (lines 64-70): component-wise signed product. -/
def prod (v w : Vect τ) : Res (Vect τ) := do
  Res.guardIll (decide (v.tags = w.tags))
  Tup.zipVals sMul v w

/-- `extent<Q>()` (lines 171-175). -/
def extent (q : τ) (d : SDom τ) : Res (Vect τ) := Tup.select [q] (extents d)

/-- Fold of `size()` (lines 156-159). -/
def sizeAux (d : SDom τ) : List τ → U64 → Res U64
  | [], acc => .ok acc
  | q :: qs, acc => do
    let x ← Tup.get q (extents d)
    sizeAux d qs (acc * x)

/-- `size()` (lines 156-159). -/
def size (d : SDom τ) : Res U64 := sizeAux d d.tags 1

/-- `empty()` (lines 263-266). -/
def empty (d : SDom τ) : Res Bool := do
  let s ← size d
  pure (decide (s = 0))

/-- `operator bool` (lines 268-271). -/
def toBool (d : SDom τ) : Res Bool := do
  let e ← empty d
  pure (!e)

/-- `operator==` (lines 137-145; rank 0 lines 353-356).  A rank-0 left operand is
only compared with a rank-0 right one (the C++20 reversed candidate is not modelled).
Short-circuit evaluation does not matter: the
operands have no effect and are always defined. -/
def eq (a b : SDom τ) : Res Bool := do
  Res.guardIll (!a.isEmpty || b.isEmpty)
  let cb ← Elem.eq (front a) (front b)
  let cn ← Vect.eq (extents a) (extents b)
  let cs ← Vect.eq (strides a) (strides b)
  let ea ← empty a
  let eb ← empty b
  if ea && eb then pure true else pure (cb && cn && cs)

/-- `back()` (lines 182-187): `begin + (extent - 1) * stride`, the integer being
computed in `ptrdiff_t`. -/
def back (d : SDom τ) : Res (Elem τ) := do
  let l ← d.tags.mapM (fun q => do
    let b ← Tup.select [q] (front d)
    let n ← Tup.get q (extents d)
    let s ← Tup.get q (strides d)
    let m ← sSub n 1
    let k ← sMul m s
    Elem.addInt b k)
  Tup.ofTuples d.tags l

/-- `take_first(n)` (lines 189-192). -/
def takeFirst (d : SDom τ) (n : Vect τ) : Res (SDom τ) := ofSize (front d) n (strides d)

/-- `take_last(n)` (lines 194-197). -/
def takeLast (d : SDom τ) (n : Vect τ) : Res (SDom τ) := do
  let k ← Vect.sub (extents d) n
  let p ← prod k (strides d)
  let f ← Elem.addVec (front d) p
  ofSize f n (strides d)

/-- `remove_first(n)` (lines 199-202). -/
def removeFirst (d : SDom τ) (n : Vect τ) : Res (SDom τ) := do
  let p ← prod n (strides d)
  let f ← Elem.addVec (front d) p
  let k ← Vect.sub (extents d) n
  ofSize f k (strides d)

/-- `remove_last(n)` (lines 204-207). -/
def removeLast (d : SDom τ) (n : Vect τ) : Res (SDom τ) := do
  let k ← Vect.sub (extents d) n
  ofSize (front d) k (strides d)

/-- `remove(n1, n2)` (lines 209-214). -/
def remove (d : SDom τ) (n1 n2 : Vect τ) : Res (SDom τ) := do
  let p ← prod n1 (strides d)
  let f ← Elem.addVec (front d) p
  let k ← Vect.sub (extents d) n1
  let k' ← Vect.sub k n2
  ofSize f k' (strides d)

/-- `operator()(dvect)` (lines 216-220). -/
def at' (d : SDom τ) (v : Vect τ) : Res (Elem τ) := do
  Res.guardIll (decide (d.tags = v.tags))
  let p ← prod v (strides d)
  Elem.addVec (front d) p

/-- The lambda `contains_1d` (lines 229-234).  `n - 1` and its product with `s` are
signed; the sum with `b` and the remainder are in `size_t`. -/
def contains1d (i b : U64) (n s : I64) : Res Bool :=
  if ¬ i ≥ b then .ok false
  else do
    let m ← sSub n 1
    let p ← sMul m s
    if ¬ i < b + p + 1 then pure false
    else if s = 0 then .ub
    else pure (decide ((i - b) % s = 0))

/-- The loop of `contains` (lines 236-244). -/
def containsLoop : List U64 → List (U64 × I64 × I64) → Res Bool
  | x :: xs, (b, n, s) :: ds => do
    let c ← contains1d x b n s
    if c then containsLoop xs ds else pure false
  | _, _ => .ok true

/-- `contains(delems...)` (lines 222-246). -/
def contains (d : SDom τ) (es : List (Elem τ)) : Res Bool := do
  Res.guardIll (decide (d.length = (es.map List.length).sum))
  let e ← Tup.ofTuples d.tags es
  containsLoop e.vals d.vals

/-- `a / b` on `ptrdiff_t`: undefined for `b = 0` and for `INT64_MIN / -1`,
truncated otherwise. -/
def sDiv (a b : I64) : Res I64 :=
  if b = 0 then .ub else signedRes (Int.tdiv a.toInt b.toInt)

/-- `distance_from_front(delems...)` (lines 248-261), assertions checked.  The
difference and the stride are one-tag `DiscreteVector`s which convert to
`ptrdiff_t`. -/
def distanceFromFront (d : SDom τ) (es : List (Elem τ)) : Res (Vect τ) := do
  Res.guardIll (decide (d.length = (es.map List.length).sum))
  let c ← contains d es
  Res.guardAbort c
  let l ← d.tags.mapM (fun q => do
    let x ← Tup.take q es
    let x' ← Tup.select [q] x
    let b ← Tup.select [q] (front d)
    let v ← Elem.sub x' b
    let a ← Tup.get q v
    let s ← Tup.get q (strides d)
    let r ← sDiv a s
    pure [(q, r)])
  Tup.ofTuples d.tags l

/-- `select<Qs...>(domain)` (lines 462-467). -/
def select (qs : List τ) (d : SDom τ) : Res (SDom τ) := ofDomains qs [d]

/-- `remove_dims_of` (lines 488-513). -/
def removeDimsOf (d : SDom τ) (ts : List τ) : Res (SDom τ) :=
  ofDomains (TypeSeq.remove d.tags ts) [d]

/-- `replace_dim_of_1d<DDim1, DDim2, DDimA>` (lines 517-532). -/
def replaceDimOf1d (t1 t2 a : τ) (da db : SDom τ) : Res (SDom τ) :=
  if a = t1 then ofDomains [t2] [db] else .ok da

/-- `replace_dim_of<DDim1, DDim2>(DDom_a, DDom_b)` (lines 536-554). -/
def replaceDimOf (t1 t2 : τ) (da db : SDom τ) : Res (SDom τ) := do
  let ts ← Res.ofOptionIll (TypeSeq.replace da.tags [t1] [t2])
  let l ← da.tags.mapM (fun a => do
    let d1 ← ofDomains [a] [da]
    replaceDimOf1d t1 t2 a d1 db)
  ofDomains ts l

/-- Free `extents<Qs...>(domain)` (lines 556-561). -/
def extentsOf (qs : List τ) (d : SDom τ) : Res (Vect τ) :=
  match qs with
  | [] => .ok []
  | q :: qs => do
    let d1 ← ofDomains [q] [d]
    let s ← size d1
    let r ← extentsOf qs d
    pure ((q, s) :: r)

/-- Free `front<Qs...>(domain)` (lines 563-568). -/
def frontOf (qs : List τ) (d : SDom τ) : Res (Elem τ) := do
  let l ← qs.mapM (fun q => do
    let d1 ← ofDomains [q] [d]
    pure (front d1))
  Tup.ofTuples qs l

/-- Free `back<Qs...>(domain)` (lines 570-575). -/
def backOf (qs : List τ) (d : SDom τ) : Res (Elem τ) := do
  let l ← qs.mapM (fun q => do
    let d1 ← ofDomains [q] [d]
    back d1)
  Tup.ofTuples qs l

end SDom

/-- `StridedDiscreteDomainIterator<DDim>` (lines 577-605). -/
structure SIter where
  value : U64
  stride : I64
  deriving DecidableEq, Repr

namespace SIter

/-- `operator++` (lines 607-611). -/
def inc (i : SIter) : SIter := { i with value := i.value + i.stride }
/-- `operator--` (lines 620-624). -/
def dec (i : SIter) : SIter := { i with value := i.value - i.stride }
/-- `operator+=` (lines 633-641), `it + n` (lines 703-715): `size_t * DiscreteVector`
multiplies modulo `2^64` (discrete_vector.hpp lines 181-187). -/
def addAssign (i : SIter) (n : I64) : Res SIter :=
  if n.toInt ≥ 0 then .ok { i with value := i.value + n * i.stride }
  else do
    let m ← sNeg n
    pure { i with value := i.value - m * i.stride }
/-- `operator-=` (lines 643-651), `it - n` (lines 717-722). -/
def subAssign (i : SIter) (n : I64) : Res SIter :=
  if n.toInt ≥ 0 then .ok { i with value := i.value - n * i.stride }
  else do
    let m ← sNeg n
    pure { i with value := i.value + m * i.stride }
/-- `operator[]` (lines 653-656): signed product. -/
def index (i : SIter) (n : I64) : Res U64 := do
  let p ← sMul n i.stride
  pure (i.value + p)
/-- `operator==` (lines 658-663). -/
def eq (i j : SIter) : Bool := decide (i.value = j.value)
/-- `operator<` (lines 675-680). -/
def lt (i j : SIter) : Bool := decide (i.value < j.value)
/-- `xx - yy` (lines 724-730). -/
def diff (x y : SIter) : Res I64 :=
  if y.value > x.value then sNeg (y.value - x.value) else .ok (x.value - y.value)

end SIter

namespace SDom

variable {τ : Type} [DecidableEq τ]

/-- `begin()` (lines 273-278). -/
def begin (d : SDom τ) : Res SIter :=
  match d with
  | [(_, (b, _, s))] => .ok ⟨b, s⟩
  | _ => .ill

/-- `end()` (lines 280-286): the product of the two one-tag vectors is a signed
`ptrdiff_t` product. -/
def end' (d : SDom τ) : Res SIter :=
  match d with
  | [(_, (b, n, s))] => do
    let p ← sMul n s
    pure ⟨b + p, s⟩
  | _ => .ill

/-- `operator[](n)` (lines 303-313). -/
def index (d : SDom τ) (n : U64) : Res U64 := do
  let i ← begin d
  i.index n

end SDom
end DDC
