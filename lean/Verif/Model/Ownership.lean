import Verif.Model.Chunk

/-!
# Ownership of allocations by chunks

Model of the special member functions of `Chunk` (`/repo/src/ddc/chunk.hpp`) and of
`KokkosAllocator` (`/repo/src/ddc/kokkos_allocator.hpp`) as a state machine on a heap.
-/

namespace DDC

/-- An allocation: the number of elements asked for, the number of bytes obtained and the contents. -/
structure Block (α : Type) where
  size : U64
  bytes : U64
  data : List α
  deriving DecidableEq, Repr

/-- Calls of the allocator. -/
inductive HeapEvent
  | alloc (a : Nat) (n : U64)
  | free (a : Nat) (n : U64)
  deriving DecidableEq, Repr

/-- Data members of a `Chunk` (chunk.hpp lines 84-87, chunk_common.hpp lines 82-87): the pointer and the extents of
`m_allocation_mdspan`, `m_domain` and `m_label`.  `KokkosAllocator` has no data member: `m_allocator` is left out. -/
structure ChunkObj (D : Type) where
  handle : Option Nat
  exts : List U64
  dom : D
  label : String
  deriving DecidableEq, Repr

/-- Memory, calls of the allocator in order and living `Chunk` objects. -/
structure World (α D : Type) where
  heap : Nat → Option (Block α)
  log : List HeapEvent
  objs : Nat → Option (ChunkObj D)

/-- What `Kokkos::kokkos_malloc` answers: a pointer, `nullptr` (possible for a size of zero) or an exception. -/
inductive AllocResult
  | ptr (a : Nat)
  | null
  | throws
  deriving DecidableEq, Repr

namespace World

/-- Assignment of one entry of a map. -/
def upd {β : Type} (f : Nat → Option β) (i : Nat) (v : Option β) : Nat → Option β := fun j => if j = i then v else f j

/-- Initial state of a program. -/
def start {α D : Type} : World α D := ⟨fun _ => none, [], fun _ => none⟩

variable {τ α D : Type} [DecidableEq τ]

/-- `KokkosAllocator::allocate(n)` (kokkos_allocator.hpp lines 59-67): `kokkos_malloc(sizeof(T) * n)`, in `size_t`.
`init` is the unspecified contents of the memory obtained.  Contract of `kokkos_malloc`: the address is not that of
a living allocation and there are as many bytes as asked for. -/
def allocate (sz : U64) (w : World α D) (a : Nat) (n : U64) (init : List α) : Res (World α D) := do
  Res.guardIll (decide ((w.heap a).isNone))
  Res.guardIll (decide (init.length * sz.toNat ≤ (sz * n).toNat ∧ (sz * n).toNat < (init.length + 1) * sz.toNat))
  pure { w with heap := upd w.heap a (some ⟨n, sz * n, init⟩), log := w.log ++ [.alloc a n] }

/-- `KokkosAllocator::deallocate(p, n)` (kokkos_allocator.hpp lines 69-72): `kokkos_free(p)`, undefined when `p` is
not a living allocation; `n` is not used. -/
def deallocate (w : World α D) (a : Nat) (n : U64) : Res (World α D) :=
  match w.heap a with
  | none => .ub
  | some _ => .ok { w with heap := upd w.heap a none, log := w.log ++ [.free a n] }

/-- `Chunk()` (chunk.hpp line 91): null pointer, the extents and the domain are those of default construction. -/
def constructDefault (w : World α D) (i : Nat) (x : List U64) (d : D) : Res (World α D) := do
  Res.guardIll (decide ((w.objs i).isNone))
  pure { w with objs := upd w.objs i (some ⟨none, x, d, ""⟩) }

/-- `Chunk(label, domain)` (chunk.hpp lines 93-102) with the assertion of `ChunkCommon` (chunk_common.hpp lines
215-222).  The exception leaves the constructor before any object exists. -/
def construct (ops : SpanOps τ D) (sz : U64) (w : World α D) (i : Nat) (label : String) (d : D)
    (r : AllocResult) (init : List α) : Res (World α D) := do
  Res.guardIll (decide ((w.objs i).isNone))
  let n ← ops.size d
  let x ← ops.extents d
  match r with
  | .throws => pure w
  | .null =>
    Res.guardAbort (decide (n = 0))
    pure { w with objs := upd w.objs i (some ⟨none, x.vals, d, label⟩) }
  | .ptr a =>
    let w ← allocate sz w a n init
    pure { w with objs := upd w.objs i (some ⟨some a, x.vals, d, label⟩) }

/-- `Chunk(Chunk&& other)` (chunk.hpp lines 112-122).  A moved-from label is modelled as empty. -/
def moveConstruct (w : World α D) (i j : Nat) : Res (World α D) := do
  Res.guardIll (decide ((w.objs i).isNone ∧ i ≠ j))
  match w.objs j with
  | none => .ill
  | some o =>
    let w1 := { w with objs := upd w.objs i (some o) }
    pure { w1 with objs := upd w1.objs j (some { o with handle := none, label := "" }) }

/-- Release of the allocation of a chunk, if any (chunk.hpp lines 126-128 and 140-142); `size()` is the product of
the extents (chunk_common.hpp lines 144-147). -/
def release (w : World α D) (o : ChunkObj D) : Res (World α D) :=
  match o.handle with
  | some a => deallocate w a (MDSpan.prod o.exts)
  | none => .ok w

/-- `~Chunk()` (chunk.hpp lines 124-129). -/
def destroy (w : World α D) (i : Nat) : Res (World α D) :=
  match w.objs i with
  | none => .ill
  | some o => do
    let w ← release w o
    pure { w with objs := upd w.objs i none }

/-- `operator=(Chunk&& other)` (chunk.hpp lines 138-150): there is no test for self-assignment, `i = j` is
allowed. -/
def moveAssign (w : World α D) (i j : Nat) : Res (World α D) :=
  match w.objs i with
  | none => .ill
  | some t => do
    let w ← release w t
    match w.objs j with
    | none => .ill
    | some o =>
      let w := { w with objs := upd w.objs i (some o) }
      match w.objs j with
      | none => .ill
      | some o => pure { w with objs := upd w.objs j (some { o with handle := none, label := "" }) }

/-- `std::swap(a, b)`: `T t(move(a)); a = move(b); b = move(t);` and destruction of `t`, which has the fresh name
`t`; `b` exists before the temporary. -/
def swap (w : World α D) (i j t : Nat) : Res (World α D) := do
  Res.guardIll (decide ((w.objs j).isSome))
  let w ← moveConstruct w t i
  let w ← moveAssign w i j
  let w ← moveAssign w j t
  destroy w t

/-- Assignment of one element of a chunk through `operator()`. -/
def store (w : World α D) (i p : Nat) (x : α) : Res (World α D) :=
  match w.objs i with
  | none => .ill
  | some o =>
    match o.handle with
    | none => .ub
    | some a =>
      match w.heap a with
      | none => .ub
      | some b => do
        let l ← Span.write b.data p x
        pure { w with heap := upd w.heap a (some { b with data := l }) }

end World

/-- Steps of a history. -/
inductive ChunkOp (α D : Type)
  | default (i : Nat) (x : List U64) (d : D)
  | construct (i : Nat) (label : String) (d : D) (r : AllocResult) (init : List α)
  | moveConstruct (i j : Nat)
  | moveAssign (i j : Nat)
  | swap (i j t : Nat)
  | destroy (i : Nat)
  | store (i p : Nat) (x : α)

namespace World

variable {τ α D : Type} [DecidableEq τ]

/-- One step. -/
def step (ops : SpanOps τ D) (sz : U64) (w : World α D) : ChunkOp α D → Res (World α D)
  | .default i x d => constructDefault w i x d
  | .construct i l d r init => construct ops sz w i l d r init
  | .moveConstruct i j => moveConstruct w i j
  | .moveAssign i j => moveAssign w i j
  | .swap i j t => swap w i j t
  | .destroy i => destroy w i
  | .store i p x => store w i p x

/-- A history. -/
def run (ops : SpanOps τ D) (sz : U64) (w : World α D) : List (ChunkOp α D) → Res (World α D)
  | [] => .ok w
  | o :: os => do
    let w ← step ops sz w o
    run ops sz w os

end World
end DDC
