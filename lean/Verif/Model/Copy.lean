import Verif.Model.Chunk
import Verif.Model.ForEach

/-!
# Copies and mirrors

Model of `/repo/src/ddc/parallel_deepcopy.hpp`, `/repo/src/ddc/parallel_copy.hpp`,
`/repo/src/ddc/parallel_fill.hpp`, `/repo/src/ddc/create_mirror.hpp` and of the conversions
between mdspan and Kokkos views of `/repo/src/ddc/detail/kokkos.hpp`.

`Kokkos::deep_copy` is external and modelled by its contract: it throws when the extents of
the two views differ and otherwise assigns the elements index by index, in any order
(`sched`, any arrangement of the index tuples).  Fences and streams are not modelled: an
operation is complete when the function returns.
-/

namespace DDC

variable {τ : Type} [DecidableEq τ]

/-- All allocations of the program, in all memory spaces; a buffer is designated by its
position. -/
abbrev Mem (α : Type) := List (List α)

namespace Mem

variable {α : Type}

/-- Reading cell `p` of buffer `b`. -/
def read (m : Mem α) (b p : Nat) : Res α :=
  match m[b]? with
  | some l => Span.read l p
  | none => .ub

/-- Writing cell `p` of buffer `b`. -/
def write (m : Mem α) (b p : Nat) (x : α) : Res (Mem α) :=
  match m[b]? with
  | some l => do
    let l' ← Span.write l p x
    pure (m.set b l')
  | none => .ub

/-- A new allocation of `n` cells with indeterminate contents `junk`. -/
def alloc (m : Mem α) (junk : Nat → α) (n : Nat) : Mem α × Nat :=
  (m ++ [(List.range n).map junk], m.length)

end Mem

/-- `Kokkos::layout_right`, `layout_left`, `layout_stride`, in bijection with
`Kokkos::LayoutRight`, `LayoutLeft`, `LayoutStride`
(detail/kokkos.hpp lines 38-92, `KokkosToMdspanLayout`, `MdspanToKokkosLayout`). -/
inductive LayoutTag
  | right
  | left
  | stride
  deriving DecidableEq, Repr

/-- A `Chunk` or `ChunkSpan` with the allocation it points into, the memory space of that
allocation and its layout type. -/
structure View (D : Type) where
  buf : Nat
  space : Nat
  layout : LayoutTag
  span : Span D
  deriving DecidableEq, Repr

/-- The strides of a contiguous layout are a function of the extents; a `layout_stride`
mapping stores them. -/
def LayoutTag.dims (l : LayoutTag) (ds : List (U64 × U64)) : List (U64 × U64) :=
  match l with
  | .right => MDSpan.layoutRight (ds.map Prod.fst)
  | .left => MDSpan.layoutLeft 1 (ds.map Prod.fst)
  | .stride => ds

/-- `build_kokkos_layout(extents, mapping)` (detail/kokkos.hpp lines 132-154) and
`allocation_kokkos_view()` (chunk_span.hpp lines 405-416): a `LayoutStride` view keeps the
strides of the mapping, the others are rebuilt from the extents. -/
def View.kokkosView {D : Type} (v : View D) : MDSpan :=
  ⟨v.span.md.off, v.layout.dims v.span.md.dims, v.span.md.cells⟩

/-- `is_kokkos_layout_compatible(view)` (detail/kokkos.hpp lines 158-167);
`span_is_contiguous()` is `span() == size()`. -/
def kokkosCompatible (l : LayoutTag) (k : MDSpan) : Bool :=
  match l with
  | .stride => true
  | _ => decide (MDSpan.requiredSpan k.dims = MDSpan.prod (k.dims.map Prod.fst))

/-- `build_mdspan(view)` (detail/kokkos.hpp lines 169-191), assertion checked. -/
def buildMdspan (l : LayoutTag) (k : MDSpan) : Res MDSpan := do
  Res.guardAbort (kokkosCompatible l k)
  pure ⟨k.off, l.dims k.dims, k.cells⟩

namespace MDSpan

/-- The index tuples of an array of extents `ns`. -/
def indices : List U64 → List (List U64)
  | [] => [[]]
  | n :: ns => (List.range n.toNat).flatMap (fun i => (indices ns).map (fun r => BitVec.ofNat 64 i :: r))

end MDSpan

section copies

variable {α : Type}

/-- `*p = *q` across buffers. -/
def copyCell (db sb : Nat) (mem : Mem α) (j : Nat × Nat) : Res (Mem α) := do
  let x ← mem.read sb j.2
  mem.write db j.1 x

/-- `Kokkos::deep_copy(dst, src)` between views (contract). -/
def deepCopy (sched : List (List U64)) (mem : Mem α) (db : Nat) (d : MDSpan) (sb : Nat) (s : MDSpan) : Res (Mem α) :=
  if d.dims.map Prod.fst = s.dims.map Prod.fst then
    sched.foldlM (fun mem is => do
      let p ← d.access is
      let q ← s.access is
      copyCell db sb mem (p, q)) mem
  else .throw

/-- `Kokkos::deep_copy(dst, value)` (contract). -/
def deepFill (sched : List (List U64)) (mem : Mem α) (db : Nat) (d : MDSpan) (x : α) : Res (Mem α) :=
  sched.foldlM (fun mem is => do
    let p ← d.access is
    mem.write db p x) mem

variable {D : Type} (ops : SpanOps τ D) (eq : D → D → Res Bool)

/-- `parallel_deepcopy(dst, src)` (parallel_deepcopy.hpp lines 21-31; lines 39-51 with an
execution space), assertion checked. -/
def parallelDeepcopy (sched : List (List U64)) (mem : Mem α) (dst src : View D) : Res (Mem α × View D) := do
  Res.guardIll (decide (ops.tags dst.span.dom = ops.tags src.span.dom))
  let c ← eq dst.span.dom src.span.dom
  Res.guardAbort c
  let m ← deepCopy sched mem dst.buf dst.kokkosView src.buf src.kokkosView
  pure (m, dst)

/-- `CopyKokkosLambdaAdapter::operator()` (parallel_copy.hpp lines 42-55): the cells written
and read by iteration `ids`. -/
def copyAdapter (dst src : Span D) (ids : List I64) : Res (Nat × Nat) :=
  match ops.tags dst.dom with
  | [] => do
    let p ← dst.accessVec ops []
    let q ← src.accessVec ops []
    pure (p, q)
  | ts => do
    let ddst := ts.zip ids
    let p ← dst.accessVec ops [ddst]
    let dsrc ← Tup.ofTuples (ops.tags src.dom) [ddst]
    let q ← src.accessVec ops [dsrc]
    pure (p, q)

/-- `parallel_copy(execution_space, dst, src)` (parallel_copy.hpp lines 74-107), assertion
checked; `sched` is the order of the iterations of the policy or of `deep_copy`.  The two
domain types are the same when the packs are. -/
def parallelCopy (sched : List (List I64)) (mem : Mem α) (dst src : View D) : Res (Mem α × View D) := do
  let d ← ops.select (ops.tags src.span.dom) dst.span.dom
  let c ← eq d src.span.dom
  Res.guardAbort c
  if ops.tags dst.span.dom = ops.tags src.span.dom then
    let m ← deepCopy sched mem dst.buf dst.kokkosView src.buf src.kokkosView
    pure (m, dst)
  else
    let m ← sched.foldlM (fun mem ids => do
      let j ← copyAdapter ops dst.span src.span ids
      copyCell dst.buf src.buf mem j) mem
    pure (m, dst)

/-- `parallel_fill(dst, value)` (parallel_fill.hpp lines 19-25; lines 33-39 with an execution
space). -/
def parallelFill (sched : List (List U64)) (mem : Mem α) (dst : View D) (x : α) : Res (Mem α × View D) := do
  let m ← deepFill sched mem dst.buf dst.kokkosView x
  pure (m, dst)

/-- `Chunk(domain, KokkosAllocator<T, Space>())` (chunk.hpp lines 92-113): a new
`layout_right` chunk in `space`. -/
def newChunk (junk : Nat → α) (space : Nat) (mem : Mem α) (d : D) : Res (Mem α × View D) := do
  let s ← Span.ofDomain ops d
  let (mem', b) := mem.alloc junk s.md.cells
  pure (mem', ⟨b, space, .right, s⟩)

/-- `detail::create_layout_right_view_and_copy(src)` (create_mirror.hpp lines 28-39). -/
def createLayoutRightViewAndCopy (junk : Nat → α) (sched : List (List U64)) (mem : Mem α) (src : View D) :
    Res (Mem α × View D) :=
  if src.layout = .right then .ok (mem, src)
  else do
    let (mem1, chunk) ← newChunk ops junk src.space mem src.span.dom
    let (mem2, _) ← parallelDeepcopy ops eq sched mem1 chunk src
    pure (mem2, chunk)

/-- `create_mirror(space, src)` (create_mirror.hpp lines 46-62). -/
def createMirror (junk : Nat → α) (space : Nat) (mem : Mem α) (src : View D) : Res (Mem α × View D) := do
  Res.guardIll (decide (src.layout = .right))
  newChunk ops junk space mem src.span.dom

/-- `create_mirror_and_copy(space, src)` (create_mirror.hpp lines 75-90). -/
def createMirrorAndCopy (junk : Nat → α) (sched : List (List U64)) (space : Nat) (mem : Mem α) (src : View D) :
    Res (Mem α × View D) := do
  Res.guardIll (decide (src.layout = .right))
  let (mem1, chunk) ← createMirror ops junk space mem src
  let (mem2, _) ← parallelDeepcopy ops eq sched mem1 chunk src
  pure (mem2, chunk)

/-- `create_mirror_view(space, src)` (create_mirror.hpp lines 103-123); `accessible a b` is
`Kokkos::SpaceAccessibility<a, b>::accessible`.  Constness of the elements is not modelled
(the function is ill-formed on const elements). -/
def createMirrorView (accessible : Nat → Nat → Bool) (junk : Nat → α) (space : Nat) (mem : Mem α) (src : View D) :
    Res (Mem α × View D) := do
  Res.guardIll (decide (src.layout = .right))
  if accessible space src.space then pure (mem, src) else createMirror ops junk space mem src

/-- `create_mirror_view_and_copy(space, src)` (create_mirror.hpp lines 136-153). -/
def createMirrorViewAndCopy (accessible : Nat → Nat → Bool) (junk : Nat → α) (sched : List (List U64)) (space : Nat)
    (mem : Mem α) (src : View D) : Res (Mem α × View D) := do
  Res.guardIll (decide (src.layout = .right))
  if accessible space src.space then pure (mem, src) else createMirrorAndCopy ops eq junk sched space mem src

end copies

end DDC
