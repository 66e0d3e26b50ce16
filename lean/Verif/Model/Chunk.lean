import Verif.Model.Strided
import Verif.Model.Sparse

/-!
# Chunks and spans

Model of `/repo/src/ddc/chunk_common.hpp`, `/repo/src/ddc/chunk_span.hpp`,
`/repo/src/ddc/chunk.hpp` (element access and slicing) and of the part of
`Kokkos::mdspan` they rely on.

`Kokkos::mdspan`, its layouts and `Kokkos::submdspan` are external: they are
modelled by their documented contract (ISO C++ [mdspan], P2630), with the
preconditions made explicit as undefined behaviour.  Every layout used by DDC is
strided (`static_assert(mapping_type::is_always_strided())`, chunk_common.hpp
line 80), so a mapping is the list of its extents and strides; the index type is
`std::size_t` (`Kokkos::dextents<std::size_t, N>`, line 42) and wraps modulo `2^64`.
-/

namespace DDC

/-- `Kokkos::mdspan<T, dextents<size_t, N>, Layout>`: `off` is the position of
`data_handle()` counted in elements from the beginning of an allocation of `cells`
elements, `dims` the extents and strides in pack order.  A pointer is identified with
its allocation and position; which allocation it is does not matter for access. -/
structure MDSpan where
  off : Nat
  dims : List (U64 × U64)
  cells : Nat
  deriving DecidableEq, Repr

/-- Argument of `Kokkos::submdspan` for one dimension: an index, a
`std::pair<size_t, size_t>` of bounds or `Kokkos::full_extent`. -/
inductive Slicer
  | index (i : I64)
  | range (first last : U64)
  | full
  deriving DecidableEq, Repr

namespace MDSpan

/-- Product of extents in `size_t`: `mdspan::size()`. -/
def prod : List U64 → U64
  | [] => 1
  | n :: ns => n * prod ns

/-- `Kokkos::layout_right::mapping(extents)`: the last extent is contiguous. -/
def layoutRight : List U64 → List (U64 × U64)
  | [] => []
  | n :: ns => (n, prod ns) :: layoutRight ns

/-- `Kokkos::layout_left::mapping(extents)`: the first extent is contiguous;
`acc` is the product of the previous extents. -/
def layoutLeft (acc : U64) : List U64 → List (U64 × U64)
  | [] => []
  | n :: ns => (n, acc) :: layoutLeft (acc * n) ns

/-- `mapping(i...)`: the sum of the products of indices and strides.  Precondition: each
index, converted to `size_t`, is below its extent. -/
def mapping : List (U64 × U64) → List U64 → Res U64
  | [], [] => .ok 0
  | (n, s) :: ds, i :: is =>
    if i < n then do
      let r ← mapping ds is
      pure (i * s + r)
    else .ub
  | _, _ => .ill

/-- `m(indices)` as a reference (`DDC_MDSPAN_ACCESS_OP`, chunk_common.hpp lines 15-30):
the cell reached in the allocation, undefined outside of it. -/
def access (m : MDSpan) (is : List U64) : Res Nat := do
  let k ← mapping m.dims is
  if m.off + k.toNat < m.cells then pure (m.off + k.toNat) else .ub

/-- Lower bound selected by a slicer. -/
def sliceFirst : Slicer → U64
  | .index i => i
  | .range f _ => f
  | .full => 0

/-- Preconditions of a slicer against an extent. -/
def sliceValid (n : U64) : Slicer → Bool
  | .index i => decide (i < n)
  | .range f l => decide (f ≤ l) && decide (l ≤ n)
  | .full => true

/-- Dimensions kept by `submdspan`. -/
def subDims : List (U64 × U64) → List Slicer → List (U64 × U64)
  | (_, _) :: ds, .index _ :: ss => subDims ds ss
  | (_, s) :: ds, .range f l :: ss => (l - f, s) :: subDims ds ss
  | (n, s) :: ds, .full :: ss => (n, s) :: subDims ds ss
  | _, _ => []

/-- `required_span_size()` of a strided mapping. -/
def requiredSpan : List (U64 × U64) → U64
  | [] => 1
  | (n, s) :: ds => if n = 0 ∨ requiredSpan ds = 0 then 0 else (n - 1) * s + requiredSpan ds

/-- Sum of lower bounds times strides. -/
def sliceOffset : List (U64 × U64) → List Slicer → U64
  | (_, s) :: ds, sl :: ss => sliceFirst sl * s + sliceOffset ds ss
  | _, _ => 0

/-- `Kokkos::submdspan(m, slicers...)`.  When a lower bound equals its extent, the
offset is `required_span_size()` (P2630, `submdspan_mapping`), which keeps the pointer
inside the allocation or one past its end. -/
def sub (m : MDSpan) (ss : List Slicer) : Res MDSpan := do
  Res.guardIll (decide (m.dims.length = ss.length))
  if (m.dims.zip ss).all (fun p => sliceValid p.1.1 p.2) then
    let o := if (m.dims.zip ss).any (fun p => decide (sliceFirst p.2 = p.1.1))
      then requiredSpan m.dims else sliceOffset m.dims ss
    if m.off + o.toNat ≤ m.cells then
      pure ⟨m.off + o.toNat, subDims m.dims ss, m.cells⟩
    else .ub
  else .ub

end MDSpan

variable {τ : Type} [DecidableEq τ]

/-- What chunks use of their `SupportType` template argument. -/
structure SpanOps (τ D : Type) where
  tags : D → List τ
  extents : D → Res (Vect τ)
  size : D → Res U64
  contains : D → List (Elem τ) → Res Bool
  distance : D → List (Elem τ) → Res (Vect τ)
  /-- `Rebind<SupportType, TypeSeq<Qs...>>::type(domain)`. -/
  select : List τ → D → Res D

/-- Operations of contiguous domains. -/
def Dom.spanOps : SpanOps τ (Dom τ) :=
  ⟨Tup.tags, Dom.extents, Dom.size, Dom.contains, Dom.distanceFromFront, fun qs d => Dom.ofDomains qs [d]⟩

/-- Operations of strided domains. -/
def SDom.spanOps : SpanOps τ (SDom τ) :=
  ⟨Tup.tags, fun d => .ok (SDom.extents d), SDom.size, SDom.contains, SDom.distanceFromFront,
    fun qs d => SDom.ofDomains qs [d]⟩

/-- Operations of sparse domains. -/
def SpDom.spanOps : SpanOps τ (SpDom τ) :=
  ⟨Tup.tags, fun d => .ok (SpDom.extents d), fun d => .ok (SpDom.size d), SpDom.contains,
    SpDom.distanceFromFront, fun qs d => SpDom.ofDomains qs [d]⟩

/-- The data members `m_allocation_mdspan` and `m_domain` of `ChunkCommon`
(chunk_common.hpp lines 82-87), shared by `Chunk` and `ChunkSpan`. -/
structure Span (D : Type) where
  md : MDSpan
  dom : D
  deriving DecidableEq, Repr

namespace Span

variable {D : Type} (ops : SpanOps τ D)

/-- `Chunk(label, domain, allocator)` (chunk.hpp lines 92-107) through
`ChunkCommon(ptr, domain)` (chunk_common.hpp lines 118-124, 215-222): an allocation of
`domain.size()` elements viewed in `layout_right`.  The allocator is assumed to return
the allocation it is asked for (KokkosAllocator throws otherwise), so the assertion on
the null pointer holds; `size() == 0` may give a null pointer and is allowed. -/
def ofDomain (d : D) : Res (Span D) := do
  let n ← ops.size d
  let x ← ops.extents d
  pure ⟨⟨0, MDSpan.layoutRight x.vals, n.toNat⟩, d⟩

/-- `ChunkSpan(allocation_mdspan, domain)` (chunk_span.hpp lines 231-243) with its
assertion on the extents. -/
def ofMdspan (m : MDSpan) (d : D) : Res (Span D) := do
  let x ← ops.extents d
  Res.guardIll (decide (m.dims.length = x.length))
  Res.guardAbort (decide (m.dims.map Prod.fst = x.vals))
  pure ⟨m, d⟩

/-- `operator()(delems...)` (chunk.hpp lines 196-208 and 228-241, chunk_span.hpp lines
354-368), assertions checked.  The components of the displacement are converted from
`ptrdiff_t` to `size_t` by mdspan. -/
def access (s : Span D) (es : List (Elem τ)) : Res Nat := do
  Res.guardIll (decide ((ops.tags s.dom).length = (es.map List.length).sum))
  let c ← ops.contains s.dom es
  Res.guardAbort c
  let v ← ops.distance s.dom es
  s.md.access v.vals

/-- `operator()(dvects...)` (chunk.hpp lines 210-226 and 243-258, chunk_span.hpp lines
370-384): no assertion. -/
def accessVec (s : Span D) (vs : List (Vect τ)) : Res Nat := do
  Res.guardIll (decide ((ops.tags s.dom).length = (vs.map List.length).sum))
  let v ← Tup.ofTuples (ops.tags s.dom) vs
  s.md.access v.vals

/-- `get_slicer_for<Q>(dvector)` (chunk_span.hpp lines 102-113). -/
def slicerVec (c : Vect τ) (q : τ) : Res Slicer :=
  if TypeSeq.present q c.tags then do
    let i ← Tup.get q c
    pure (.index i)
  else .ok .full

/-- The fold of `DiscreteVector<Q>(slice_spec) < DiscreteVector<Q>(m_domain.extents())`
over the tags of the query (chunk_span.hpp lines 278-281). -/
def allLt (c x : Vect τ) : List τ → Res Bool
  | [] => .ok true
  | q :: qs => do
    let a ← Tup.get q c
    let b ← Tup.get q x
    let r ← allLt c x qs
    pure (sLt a b && r)

/-- `operator[](DiscreteVector)` (chunk_span.hpp lines 272-307), assertion checked.
The conversion of a padded layout to `layout_stride` keeps extents and strides. -/
def sliceVec (s : Span D) (c : Vect τ) : Res (Span D) := do
  let x ← ops.extents s.dom
  let b ← allLt c x c.tags
  Res.guardAbort b
  let ss ← (ops.tags s.dom).mapM (slicerVec c)
  let m ← s.md.sub ss
  let d ← ops.select (TypeSeq.remove (ops.tags s.dom) c.tags) s.dom
  ofMdspan ops m d

/-- `operator[](DiscreteElement)` (chunk_span.hpp lines 309-318), assertion checked. -/
def slice (s : Span D) (e : Elem τ) : Res (Span D) := do
  let d ← ops.select e.tags s.dom
  let c ← ops.contains d [e]
  Res.guardAbort c
  let v ← ops.distance d [e]
  sliceVec ops s v

/-- `get_slicer_for<Q>(c, origin)` (chunk_span.hpp lines 115-130).  The differences are
one-tag `DiscreteVector`s converted to `size_t`. -/
def slicerDom (c origin : Dom τ) (q : τ) : Res Slicer :=
  if TypeSeq.present q c.tags then do
    let cs ← Dom.ofDomains [q] [c]
    let os ← Dom.ofDomains [q] [origin]
    let a ← Elem.sub (Dom.front cs) (Dom.front os)
    let f ← Tup.get q a
    let bk ← Dom.back cs
    let bk' ← Elem.addInt bk 1
    let b ← Elem.sub bk' (Dom.front os)
    let l ← Tup.get q b
    pure (.range f l)
  else .ok .full

/-- `operator[](DiscreteDomain)` (chunk_span.hpp lines 320-352), assertions checked.
`||` and `&&` short-circuit, but the model evaluates all operands: `front`, `back` and
`contains` of contiguous domains have no side effect and are defined on empty domains. -/
def restrict (s : Span (Dom τ)) (o : Dom τ) : Res (Span (Dom τ)) := do
  let e ← Dom.empty o
  let d ← Dom.ofDomains o.tags [s.dom]
  let c1 ← Dom.contains d [Dom.front o]
  let bk ← Dom.back o
  let c2 ← Dom.contains d [bk]
  Res.guardAbort (e || (c1 && c2))
  let ss ← (Tup.tags s.dom).mapM (slicerDom o s.dom)
  let m ← s.md.sub ss
  let r ← Dom.restrictWith s.dom o
  ofMdspan Dom.spanOps m r

/-- Reading through a reference returned by `operator()`: `mem` is the contents of the
allocation. -/
def read {α : Type} (mem : List α) (p : Nat) : Res α :=
  match mem[p]? with
  | some x => .ok x
  | none => .ub

/-- Writing through a reference returned by `operator()`. -/
def write {α : Type} (mem : List α) (p : Nat) (x : α) : Res (List α) :=
  if p < mem.length then .ok (mem.set p x) else .ub

end Span
end DDC
