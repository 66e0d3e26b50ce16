import Verif.Model.Element

/-!
# DiscreteDomain

Model of `/repo/src/ddc/discrete_domain.hpp`.

A `DiscreteDomain<DDims...>` holds two elements over the same pack,
`m_element_begin` and `m_element_end` (lines 80-82).  They are stored zipped: the
list of `(tag, (begin, end))` in pack order.  The specialisation
`DiscreteDomain<>` (lines 299-447) is the empty list; the members whose
specialised body differs from the primary template treat `[]` separately.
-/

namespace DDC

/-- `DiscreteDomain<DDims...>` (discrete_domain.hpp lines 66-297): the pairs
`(m_element_begin, m_element_end)` of each dimension. -/
abbrev Dom (τ : Type) := Tup τ (U64 × U64)

namespace Dom

variable {τ : Type} [DecidableEq τ]

/-- `m_element_begin` (discrete_domain.hpp line 80). -/
def beg (d : Dom τ) : Elem τ := d.map (fun p => (p.1, p.2.1))

/-- `m_element_end` (discrete_domain.hpp line 82). -/
def fin (d : Dom τ) : Elem τ := d.map (fun p => (p.1, p.2.2))

/-- A domain from its two data members, with the class `static_assert` on the
uniqueness of the tags (discrete_domain.hpp lines 70-82). -/
def mk (b e : Elem τ) : Res (Dom τ) := do
  Res.guardIll (TypeSeq.isUnique b.tags)
  Tup.zipVals (fun x y => Res.ok (x, y)) b e

/-- `DiscreteDomain(element_begin, size)` (discrete_domain.hpp lines 105-111).
The two parameters have the pack of the class; the conversion from another
order is `explicit`. -/
def ofSize (b : Elem τ) (n : Vect τ) : Res (Dom τ) := do
  Res.guardIll (decide (b.tags = n.tags))
  let e ← Elem.addVec b n
  mk b e

/-- `front()` (discrete_domain.hpp lines 158-161). -/
def front (d : Dom τ) : Elem τ := beg d

/-- `extents()` (discrete_domain.hpp lines 146-149). -/
def extents (d : Dom τ) : Res (Vect τ) := Elem.sub (fin d) (beg d)

/-- `extent<Q>()` (discrete_domain.hpp lines 151-156). -/
def extent (q : τ) (d : Dom τ) : Res (Vect τ) := do
  let e ← Tup.select [q] (fin d)
  let b ← Tup.select [q] (beg d)
  Elem.sub e b

/-- `size()` (discrete_domain.hpp lines 141-144): the left fold
`(1UL * ... * extent<DDims>().value())` in `unsigned long`. -/
def sizeAux (d : Dom τ) : List τ → U64 → Res U64
  | [], acc => .ok acc
  | q :: qs, acc => do
    let v ← extent q d
    let x ← Tup.get q v
    sizeAux d qs (acc * x)

/-- `size()` (discrete_domain.hpp lines 141-144, rank 0: 356-359). -/
def size (d : Dom τ) : Res U64 := sizeAux d d.tags 1

/-- `empty()` (discrete_domain.hpp lines 252-255, rank 0: 434-437). -/
def empty (d : Dom τ) : Res Bool := do
  let s ← size d
  pure (decide (s = 0))

/-- `operator bool` (discrete_domain.hpp lines 257-260, 439-442). -/
def toBool (d : Dom τ) : Res Bool := do
  let e ← empty d
  pure (!e)

/-- The merging constructor `DiscreteDomain<Qs...>(domains...)`
(discrete_domain.hpp lines 93-99, rank 0: 318-323). -/
def ofDomains (qs : List τ) (ds : List (Dom τ)) : Res (Dom τ) := do
  let b ← Tup.ofTuples qs (ds.map front)
  let es ← ds.mapM (fun d => do
    let n ← extents d
    Elem.addVec (front d) n)
  let e ← Tup.ofTuples qs es
  mk b e

/-- `operator==` (discrete_domain.hpp lines 123-130, rank 0: 345-348).  Both
fold comparisons must compile even if the emptiness test returns first; the
specialisation `DiscreteDomain<>` only compares with itself. -/
def eq (a b : Dom τ) : Res Bool := do
  Res.guardIll (!a.isEmpty || b.isEmpty)
  let cb ← Elem.eq (beg a) (beg b)
  let ce ← Elem.eq (fin a) (fin b)
  let ea ← empty a
  let eb ← empty b
  if ea && eb then pure true else pure (cb && ce)

/-- `operator!=`: `!(a == b)` (discrete_domain.hpp lines 132-139). -/
def ne (a b : Dom τ) : Res Bool := do
  let r ← eq a b
  pure (!r)

/-- `back()` (discrete_domain.hpp lines 163-166):
`discrete_element_type((DiscreteElement<DDims>(m_element_end) - 1)...)`. -/
def back (d : Dom τ) : Res (Elem τ) := do
  let l ← d.tags.mapM (fun q => do
    let e ← Tup.select [q] (fin d)
    Elem.subInt e 1)
  Tup.ofTuples d.tags l

/-- `take_first(n)` (discrete_domain.hpp lines 168-171, rank 0: 376-379). -/
def takeFirst (d : Dom τ) (n : Vect τ) : Res (Dom τ) := ofSize (front d) n

/-- `take_last(n)` (discrete_domain.hpp lines 173-176, rank 0: 381-384). -/
def takeLast (d : Dom τ) (n : Vect τ) : Res (Dom τ) := do
  let x ← extents d
  let k ← Vect.sub x n
  let f ← Elem.addVec (front d) k
  ofSize f n

/-- `remove_first(n)` (discrete_domain.hpp lines 178-181, rank 0: 386-389). -/
def removeFirst (d : Dom τ) (n : Vect τ) : Res (Dom τ) := do
  let f ← Elem.addVec (front d) n
  let x ← extents d
  let k ← Vect.sub x n
  ofSize f k

/-- `remove_last(n)` (discrete_domain.hpp lines 183-186, rank 0: 391-394). -/
def removeLast (d : Dom τ) (n : Vect τ) : Res (Dom τ) := do
  let x ← extents d
  let k ← Vect.sub x n
  ofSize (front d) k

/-- `remove(n1, n2)` (discrete_domain.hpp lines 188-193, rank 0: 396-401). -/
def remove (d : Dom τ) (n1 n2 : Vect τ) : Res (Dom τ) := do
  let f ← Elem.addVec (front d) n1
  let x ← extents d
  let k ← Vect.sub x n1
  let k' ← Vect.sub k n2
  ofSize f k'

/-- `operator()(dvect)` (discrete_domain.hpp lines 195-199, rank 0: 403-407). -/
def at' (d : Dom τ) (v : Vect τ) : Res (Elem τ) := do
  Res.guardIll (decide (d.tags = v.tags))
  Elem.addVec (beg d) v

/-- The fold `((DiscreteElement<Qs>(x) op DiscreteElement<Qs>(y)) && ...)` of the
two assertions of `restrict_with`; all operands must compile. -/
def allCmp (op : Elem τ → Elem τ → Res Bool) (x y : Elem τ) : List τ → Res Bool
  | [] => .ok true
  | q :: qs => do
    let a ← Tup.select [q] x
    let b ← Tup.select [q] y
    let c ← op a b
    let r ← allCmp op x y qs
    pure (c && r)

/-- `restrict_with(odomain)` (discrete_domain.hpp lines 201-220, rank 0: 409-414).
`KOKKOS_ASSERT` is modelled as checked; see `restrictWithCore` for a build where
the assertions are compiled out. -/
def restrictWithCore (d o : Dom τ) : Res (Dom τ) :=
  match d with
  | [] => .ok []
  | _ => do
    let mx ← extents d
    let ox ← extents o
    let bs ← d.tags.mapM (fun q => do
      let dflt ← Tup.select [q] (beg d)
      Tup.selectOr q (beg o) dflt)
    let ns ← d.tags.mapM (fun q => do
      let dflt ← Tup.select [q] mx
      Tup.selectOr q ox dflt)
    let b ← Tup.ofTuples d.tags bs
    let n ← Tup.ofTuples d.tags ns
    ofSize b n

@[inherit_doc restrictWithCore]
def restrictWith (d o : Dom τ) : Res (Dom τ) :=
  match d with
  | [] => .ok []
  | _ => do
    let c1 ← allCmp Elem.le (beg d) (beg o) o.tags
    let c2 ← allCmp Elem.ge (fin d) (fin o) o.tags
    Res.guardAbort c1
    Res.guardAbort c2
    restrictWithCore d o

/-- The loop of `contains` over the arrays (discrete_domain.hpp lines 230-236):
returns `false` at the first dimension out of bounds. -/
def containsLoop : List U64 → List (U64 × U64) → Bool
  | x :: xs, (b, e) :: ds => if x < b || x ≥ e then false else containsLoop xs ds
  | _, _ => true

/-- `contains(delems...)` (discrete_domain.hpp lines 222-237, rank 0: 416-424). -/
def contains (d : Dom τ) (es : List (Elem τ)) : Res Bool := do
  Res.guardIll (decide (d.length = (es.map List.length).sum))
  let e ← Tup.ofTuples d.tags es
  pure (containsLoop e.vals d.vals)

/-- `distance_from_front(delems...)` (discrete_domain.hpp lines 239-250,
rank 0: 426-432). -/
def distanceFromFront (d : Dom τ) (es : List (Elem τ)) : Res (Vect τ) := do
  Res.guardIll (decide (d.length = (es.map List.length).sum))
  let l ← d.tags.mapM (fun q => do
    let x ← Tup.take q es
    let x' ← Tup.select [q] x
    let b ← Tup.select [q] (beg d)
    Elem.sub x' b)
  Tup.ofTuples d.tags l

/-- `select<Qs...>(domain)` (discrete_domain.hpp lines 449-454). -/
def select (qs : List τ) (d : Dom τ) : Res (Dom τ) := ofDomains qs [d]

/-- `remove_dims_of<DDimsB...>(DDom_a)` and `remove_dims_of(DDom_a, DDom_b)`
(discrete_domain.hpp lines 474-498). -/
def removeDimsOf (d : Dom τ) (ts : List τ) : Res (Dom τ) :=
  ofDomains (TypeSeq.remove d.tags ts) [d]

/-- `replace_dim_of_1d<DDim1, DDim2, DDimA>` (discrete_domain.hpp lines 506-521). -/
def replaceDimOf1d (t1 t2 a : τ) (da db : Dom τ) : Res (Dom τ) :=
  if a = t1 then ofDomains [t2] [db] else .ok da

/-- `replace_dim_of<DDim1, DDim2>(DDom_a, DDom_b)` (discrete_domain.hpp lines 525-543). -/
def replaceDimOf (t1 t2 : τ) (da db : Dom τ) : Res (Dom τ) := do
  let ts ← Res.ofOptionIll (TypeSeq.replace da.tags [t1] [t2])
  let l ← da.tags.mapM (fun a => do
    let d1 ← ofDomains [a] [da]
    replaceDimOf1d t1 t2 a d1 db)
  ofDomains ts l

/-- Free `extents<Qs...>(domain)` (discrete_domain.hpp lines 552-557). -/
def extentsOf (qs : List τ) (d : Dom τ) : Res (Vect τ) :=
  match qs with
  | [] => .ok []
  | q :: qs => do
    let d1 ← ofDomains [q] [d]
    let s ← size d1
    let r ← extentsOf qs d
    pure ((q, s) :: r)

/-- Free `front<Qs...>(domain)` (discrete_domain.hpp lines 559-564). -/
def frontOf (qs : List τ) (d : Dom τ) : Res (Elem τ) := do
  let l ← qs.mapM (fun q => do
    let d1 ← ofDomains [q] [d]
    pure (front d1))
  Tup.ofTuples qs l

/-- Free `back<Qs...>(domain)` (discrete_domain.hpp lines 566-571). -/
def backOf (qs : List τ) (d : Dom τ) : Res (Elem τ) := do
  let l ← qs.mapM (fun q => do
    let d1 ← ofDomains [q] [d]
    back d1)
  Tup.ofTuples qs l

end Dom

/-! ## Iterators of one-dimensional domains -/

/-- `DiscreteDomainIterator<DDim>` (discrete_domain.hpp lines 573-590): the single
index `m_value`. -/
structure DomIter where
  value : U64
  deriving DecidableEq, Repr

namespace DomIter

/-- `operator++` (discrete_domain.hpp lines 597-601). -/
def inc (i : DomIter) : DomIter := ⟨i.value + 1⟩

/-- `operator++(int)` (discrete_domain.hpp lines 603-608): returned and new value. -/
def postInc (i : DomIter) : DomIter × DomIter := (i, inc i)

/-- `operator--` (discrete_domain.hpp lines 610-614). -/
def dec (i : DomIter) : DomIter := ⟨i.value - 1⟩

/-- `operator--(int)` (discrete_domain.hpp lines 616-621): returned and new value. -/
def postDec (i : DomIter) : DomIter × DomIter := (i, dec i)

/-- `operator+=` (discrete_domain.hpp lines 623-631) and `it + n`, `n + it`
(lines 692-704).  `-n` is a signed negation. -/
def addAssign (i : DomIter) (n : I64) : Res DomIter :=
  if n.toInt ≥ 0 then .ok ⟨i.value + n⟩
  else do
    let m ← sNeg n
    pure ⟨i.value - m⟩

/-- `operator-=` (discrete_domain.hpp lines 633-641) and `it - n` (lines 706-711). -/
def subAssign (i : DomIter) (n : I64) : Res DomIter :=
  if n.toInt ≥ 0 then .ok ⟨i.value - n⟩
  else do
    let m ← sNeg n
    pure ⟨i.value + m⟩

/-- `operator[]` (discrete_domain.hpp lines 643-646). -/
def index (i : DomIter) (n : I64) : U64 := i.value + n

/-- `operator==` (discrete_domain.hpp lines 648-653). -/
def eq (i j : DomIter) : Bool := decide (i.value = j.value)
/-- `operator<` (discrete_domain.hpp lines 665-670). -/
def lt (i j : DomIter) : Bool := decide (i.value < j.value)
/-- `operator>` (discrete_domain.hpp lines 672-677). -/
def gt (i j : DomIter) : Bool := lt j i
/-- `operator<=` (discrete_domain.hpp lines 679-684). -/
def le (i j : DomIter) : Bool := !lt j i
/-- `operator>=` (discrete_domain.hpp lines 686-691). -/
def ge (i j : DomIter) : Bool := !lt i j

/-- `xx - yy` (discrete_domain.hpp lines 713-721).  The difference of two
`DiscreteElement`s is a `DiscreteVector` that converts to `ptrdiff_t`
(discrete_vector.hpp lines 228-245). -/
def diff (x y : DomIter) : Res I64 :=
  if y.value > x.value then sNeg (y.value - x.value) else .ok (x.value - y.value)

end DomIter

namespace Dom

variable {τ : Type} [DecidableEq τ]

/-- `begin()`/`cbegin()` (discrete_domain.hpp lines 262-266, 274-278). -/
def begin (d : Dom τ) : Res DomIter :=
  match d with
  | [(_, (b, _))] => .ok ⟨b⟩
  | _ => .ill

/-- `end()`/`cend()` (discrete_domain.hpp lines 268-272, 280-284). -/
def end' (d : Dom τ) : Res DomIter :=
  match d with
  | [(_, (_, e))] => .ok ⟨e⟩
  | _ => .ill

/-- `operator[](n)` (discrete_domain.hpp lines 286-296): `begin()[n]`. -/
def index (d : Dom τ) (n : U64) : Res U64 := do
  let i ← begin d
  pure (i.index n)

end Dom
end DDC
