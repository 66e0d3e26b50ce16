import Verif.Model.Domain

/-!
# SparseDiscreteDomain

Model of `/repo/src/ddc/sparse_discrete_domain.hpp`.  `m_views` (line 134) is
one array of indices per dimension: the list of `(tag, indices)` in pack order.
The Kokkos views are shared, read-only arrays here; nothing in the class writes
them after construction.  Positions inside an array are natural numbers: an array
never has `2^63` entries.  `take_first`, `take_last`, `remove_first`,
`remove_last` and `remove` (lines 239-264) do not compile when instantiated for a
rank of at least one (no matching constructor, `prod` with one argument) and are
not modelled.
-/

namespace DDC

/-- `SparseDiscreteDomain<DDims...>` (sparse_discrete_domain.hpp lines 118-359). -/
abbrev SpDom (τ : Type) := Tup τ (List U64)

namespace SpDom

variable {τ : Type} [DecidableEq τ]

/-- `detail::equal(first1, last1, first2)` (lines 61-71). -/
def equal : List U64 → List U64 → Res Bool
  | [], _ => .ok true
  | _ :: _, [] => .ub
  | x :: xs, y :: ys => if ¬ (x = y) then .ok false else equal xs ys

/-- The loop of `detail::lower_bound` (lines 73-92) with comparison `<`: `first`
and `count` are the loop variables, reads outside of the array are undefined. -/
def lowerBoundLoop (l : List U64) (v : U64) (first count : Nat) : Res Nat :=
  if _h : 0 < count then
    match l[first + count / 2]? with
    | none => .ub
    | some x =>
      if x < v then lowerBoundLoop l v (first + count / 2 + 1) (count - (count / 2 + 1))
      else lowerBoundLoop l v first (count / 2)
  else .ok first
termination_by count
decreasing_by all_goals omega

/-- `detail::lower_bound(data, data + size, v, less)`. -/
def lowerBound (l : List U64) (v : U64) : Res Nat := lowerBoundLoop l v 0 l.length

/-- `detail::binary_search` (lines 94-99). -/
def binarySearch (l : List U64) (v : U64) : Res Bool := do
  let p ← lowerBound l v
  if p = l.length then pure false
  else
    match l[p]? with
    | none => .ub
    | some x => pure (!decide (v < x))

/-- The assignments of the constructor from explicit lists of elements (lines
151-162) with `extract_uid` (lines 101-114): one list per dimension. -/
def ofViewsAux (qs : List τ) (views : List (List (Elem τ))) : Res (SpDom τ) :=
  match qs, views with
  | [], [] => .ok []
  | q :: qs, v :: vs => do
    let l ← v.mapM (fun e => if e.tags = [q] then Tup.get q e else .ill)
    let r ← ofViewsAux qs vs
    pure ((q, l) :: r)
  | _, _ => .ill

/-- The constructor from explicit lists of elements (lines 151-162) with the class
`static_assert` (lines 124-126). -/
def ofViews (qs : List τ) (views : List (List (Elem τ))) : Res (SpDom τ) := do
  Res.guardIll (TypeSeq.isUnique qs)
  ofViewsAux qs views

/-- The merging constructor (lines 144-149) and `SparseDiscreteDomain(other)`. -/
def ofDomains (qs : List τ) (ds : List (SpDom τ)) : Res (SpDom τ) := do
  Res.guardIll (TypeSeq.isUnique qs)
  Tup.ofTuples qs ds

/-- Fold of `size()` (lines 208-211). -/
def sizeAux : List (List U64) → U64 → U64
  | [], acc => acc
  | l :: ls, acc => sizeAux ls (acc * BitVec.ofNat 64 l.length)

/-- `size()` (lines 208-211). -/
def size (d : SpDom τ) : U64 := sizeAux d.vals 1

/-- `empty()` (lines 310-313). -/
def empty (d : SpDom τ) : Bool := decide (size d = 0)

/-- `extents()` (lines 213-216). -/
def extents (d : SpDom τ) : Vect τ := d.map (fun p => (p.1, BitVec.ofNat 64 p.2.length))

/-- Loop of `operator==` for identical packs (lines 182-192). -/
def eqLoop : List (List U64) → List (List U64) → Res Bool
  | a :: as, b :: bs =>
    if a.length ≠ b.length then .ok false
    else do
      let c ← equal a b
      if c then eqLoop as bs else pure false
  | _, _ => .ok true

/-- `operator==` (lines 175-197).  The fold `(is_same_v<DDims, ODims> && ...)` does
not compile for packs of different lengths. -/
def eq (a b : SpDom τ) : Res Bool := do
  Res.guardIll (decide (a.length = b.length))
  if a.tags = b.tags then
    if empty a && empty b then pure true else eqLoop a.vals b.vals
  else do
    let b' ← ofDomains a.tags [b]
    if empty a && empty b' then pure true else eqLoop a.vals b'.vals

/-- `view(i)`: array access, undefined outside of the array. -/
def read (l : List U64) (i : Nat) : Res U64 :=
  match l[i]? with
  | some x => .ok x
  | none => .ub

/-- `front()` (lines 229-232). -/
def front (d : SpDom τ) : Res (Elem τ) :=
  Tup.mapVals (fun l => read l 0) d

/-- `back()` (lines 234-237). -/
def back (d : SpDom τ) : Res (Elem τ) :=
  Tup.mapVals (fun l => read l (l.length - 1)) d

/-- `operator()(dvect)` (lines 266-270): array access at the given position. -/
def at' (d : SpDom τ) (v : Vect τ) : Res (Elem τ) := do
  Res.guardIll (decide (d.tags = v.tags))
  Tup.zipVals (fun (l : List U64) (x : I64) => read l x.toNat) d v

/-- Loop of `contains` (lines 280-288). -/
def containsLoop : List U64 → List (List U64) → Res Bool
  | x :: xs, l :: ls => do
    let c ← binarySearch l x
    if c then containsLoop xs ls else pure false
  | _, _ => .ok true

/-- `contains(delems...)` (lines 272-290). -/
def contains (d : SpDom τ) (es : List (Elem τ)) : Res Bool := do
  Res.guardIll (decide (d.length = (es.map List.length).sum))
  let e ← Tup.ofTuples d.tags es
  containsLoop e.vals d.vals

/-- `distance_from_front(delems...)` (lines 292-308), assertions checked. -/
def distanceFromFront (d : SpDom τ) (es : List (Elem τ)) : Res (Vect τ) := do
  Res.guardIll (decide (d.length = (es.map List.length).sum))
  let c ← contains d es
  Res.guardAbort c
  let l ← d.tags.mapM (fun q => do
    let x ← Tup.take q es
    let u ← Tup.get q x
    let v ← Tup.get q d
    let p ← lowerBound v u
    pure [(q, (BitVec.ofNat 64 p : I64))])
  Tup.ofTuples d.tags l

/-- `begin()[n]`, i.e. `operator[](n)` (lines 320-358). -/
def index (d : SpDom τ) (n : U64) : Res U64 :=
  match d with
  | [(_, l)] => read l n.toNat
  | _ => .ill

/-- The loop `for (p = begin(); p != end(); ++p) visit(*p)` (pointers, lines 320-346). -/
def visited (d : SpDom τ) : Res (List U64) :=
  match d with
  | [(_, l)] => .ok l
  | _ => .ill

/-- `select<Qs...>(domain)` (lines 494-499). -/
def select (qs : List τ) (d : SpDom τ) : Res (SpDom τ) := ofDomains qs [d]

/-- `remove_dims_of` (lines 519-544). -/
def removeDimsOf (d : SpDom τ) (ts : List τ) : Res (SpDom τ) :=
  ofDomains (TypeSeq.remove d.tags ts) [d]

/-- `replace_dim_of_1d<DDim1, DDim2, DDimA>` (lines 548-563). -/
def replaceDimOf1d (t1 t2 a : τ) (da db : SpDom τ) : Res (SpDom τ) :=
  if a = t1 then ofDomains [t2] [db] else .ok da

/-- `replace_dim_of<DDim1, DDim2>(DDom_a, DDom_b)` (lines 567-585). -/
def replaceDimOf (t1 t2 : τ) (da db : SpDom τ) : Res (SpDom τ) := do
  let ts ← Res.ofOptionIll (TypeSeq.replace da.tags [t1] [t2])
  let l ← da.tags.mapM (fun a => do
    let d1 ← ofDomains [a] [da]
    replaceDimOf1d t1 t2 a d1 db)
  ofDomains ts l

/-- Free `extents<Qs...>(domain)` (lines 587-592). -/
def extentsOf (qs : List τ) (d : SpDom τ) : Res (Vect τ) :=
  match qs with
  | [] => .ok []
  | q :: qs => do
    let d1 ← ofDomains [q] [d]
    let r ← extentsOf qs d
    pure ((q, size d1) :: r)

/-- Free `front<Qs...>(domain)` (lines 594-599). -/
def frontOf (qs : List τ) (d : SpDom τ) : Res (Elem τ) := do
  let l ← qs.mapM (fun q => do
    let d1 ← ofDomains [q] [d]
    front d1)
  Tup.ofTuples qs l

/-- Free `back<Qs...>(domain)` (lines 601-606). -/
def backOf (qs : List τ) (d : SpDom τ) : Res (Elem τ) := do
  let l ← qs.mapM (fun q => do
    let d1 ← ofDomains [q] [d]
    back d1)
  Tup.ofTuples qs l

end SpDom
end DDC
