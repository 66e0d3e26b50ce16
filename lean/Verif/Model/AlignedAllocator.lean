import Verif.Model.Base

/-!
# Aligned memory

Model of `/repo/src/ddc/aligned_allocator.hpp`.  The heap is the list of the blocks that `operator new[]` has given out.

Simplifications: the addresses that `operator new[]` gives are arguments; the layout of an array `new` expression is that of the
Itanium C++ ABI (section 2.7: the number of elements is stored in front of the array when the elements have a destructor to run);
default initialisation of the elements is left out.
-/

namespace DDC.Aligned

/-- A type, as far as the allocator depends on it: `sizeof`, `alignof`, `std::is_trivially_destructible_v`, and its identity. -/
structure Ty where
  id : Nat
  size : Nat
  align : Nat
  trivial : Bool
  deriving DecidableEq

/-- A block given out by `operator new[]`. -/
structure Block where
  addr : Nat
  size : Nat
  align : Nat
  deriving DecidableEq

/-- The size of what an array `new` expression stores in front of the array. -/
def cookie (T : Ty) : Nat := if T.trivial then 0 else max 8 T.align

/-- `operator new[](size, std::align_val_t(N))`: an alignment that is not a power of two is undefined behaviour; `none` stands
for the lack of memory. -/
def operatorNew (heap : List Block) (size N : Nat) (choice : Option Nat) : Res (List Block × Nat) :=
  if 2 ^ N.log2 = N then
    match choice with
    | none => .throw
    | some a => .ok (⟨a, size, N⟩ :: heap, a)
  else .ub

/-- `operator delete[](p, std::align_val_t(N))`: `p` is null or a block that has been given out for the same alignment. -/
def operatorDelete (heap : List Block) (p N : Nat) : Res (List Block) :=
  if p = 0 then .ok heap
  else if heap.any (fun b => b.addr == p && b.align == N) then .ok (heap.filter fun b => b.addr != p)
  else .ub

/-- `allocate(n)` (lines 45-48): `new (std::align_val_t(N)) T[n]`.  A number of elements for which the size exceeds
`PTRDIFF_MAX` makes the expression throw; objects at an address that does not fit their type are undefined behaviour. -/
def allocate (T : Ty) (N : Nat) (heap : List Block) (n : Nat) (choice : Option Nat) : Res (List Block × Nat) :=
  if 2 ^ 63 ≤ n * T.size + cookie T then .throw
  else do
    let r ← operatorNew heap (n * T.size + cookie T) N choice
    if (r.2 + cookie T) % T.align = 0 then .ok (r.1, r.2 + cookie T) else .ub

/-- `deallocate(p, n)` (lines 50-53). -/
def deallocate (N : Nat) (heap : List Block) (p : Nat) (_n : Nat) : Res (List Block) := operatorDelete heap p N

/-- `operator==` (lines 56-60): the types of the two allocators are the same. -/
def eq (T : Ty) (NT : Nat) (U : Ty) (NU : Nat) : Bool := T.id == U.id && NT == NU

/-- `operator!=` (lines 62-69). -/
def ne (T : Ty) (NT : Nat) (U : Ty) (NU : Nat) : Bool := !(T.id == U.id && NT == NU)

/-- The assignment from an allocator of another type (lines 39-43): its body returns nothing. -/
def assignOther : Res Unit := .ub

/-- What a user of the allocator does: ask for `n` elements, or release the array number `k` of those they have. -/
inductive Op
  | get (n : Nat) (choice : Option Nat)
  | release (k : Nat)

/-- The arrays that the user has, with their numbers of elements, and the heap. -/
structure State where
  held : List (Nat × Nat)
  heap : List Block

/-- One operation. -/
def run1 (T : Ty) (N : Nat) (s : State) : Op → Res State
  | .get n choice => do
    let r ← allocate T N s.heap n choice
    .ok ⟨(r.2, n) :: s.held, r.1⟩
  | .release k =>
    match s.held[k]? with
    | none => .ok s
    | some (p, n) => do
      let h ← deallocate N s.heap p n
      .ok ⟨s.held.eraseIdx k, h⟩

/-- A history. -/
def run (T : Ty) (N : Nat) (s : State) (ops : List Op) : Res State := ops.foldlM (run1 T N) s

end DDC.Aligned
