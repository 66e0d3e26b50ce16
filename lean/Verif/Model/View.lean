import Verif.Model.Copy

/-!
# Access to chunks that live in a memory

Reading, writing and slicing a `Chunk` or `ChunkSpan` that points into an allocation of the program
(`/repo/src/ddc/chunk.hpp`, `/repo/src/ddc/chunk_span.hpp`): the operations of `Model/Chunk.lean` on a `View`.
-/

namespace DDC.View

variable {α τ : Type} [DecidableEq τ]

/-- Reading `chunk(delems...)` (chunk.hpp lines 196-208, chunk_span.hpp lines 354-368). -/
def get (mem : Mem α) (v : View (Dom τ)) (es : List (Elem τ)) : Res α := do
  let p ← v.span.access Dom.spanOps es
  mem.read v.buf p

/-- Assigning to `chunk(delems...)` (chunk.hpp lines 228-241, chunk_span.hpp lines 354-368). -/
def put (mem : Mem α) (v : View (Dom τ)) (es : List (Elem τ)) (x : α) : Res (Mem α) := do
  let p ← v.span.access Dom.spanOps es
  mem.write v.buf p x

/-- `chunk[delem]` (chunk_span.hpp lines 309-318).  The layout type of the slice is taken to be `layout_stride`: whatever
it is, it has the strides of the mapping. -/
def sliceAt (v : View (Dom τ)) (e : Elem τ) : Res (View (Dom τ)) := do
  let s ← v.span.slice Dom.spanOps e
  .ok ⟨v.buf, v.space, .stride, s⟩

/-- `chunk[ddomain]` (chunk_span.hpp lines 320-352), with the same simplification. -/
def restrictTo (v : View (Dom τ)) (d : Dom τ) : Res (View (Dom τ)) := do
  let s ← v.span.restrict d
  .ok ⟨v.buf, v.space, .stride, s⟩

end DDC.View
