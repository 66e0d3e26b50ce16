import Verif.Model.Base

/-!
# Loops and local arrays

Common vocabulary for the numerical kernels.  Nothing here models a particular function of DDC: a
`for` loop with a counter, a one-dimensional array and a two-dimensional `mdspan` whose entries may
be uninitialised.  An access outside of the bounds and a read of an uninitialised entry are undefined
behaviour.
-/

namespace DDC

/-- `for (i = lo; i < lo + count; ++i) s = f(i, s);` -/
def forLoop {σ : Type} (f : Nat → σ → Res σ) : Nat → Nat → σ → Res σ
  | _, 0, s => .ok s
  | i, n + 1, s => do
    let s ← f i s
    forLoop f (i + 1) n s

/-- A one-dimensional array. -/
structure Arr (K : Type) where
  size : Nat
  val : Nat → Option K

namespace Arr

variable {K : Type}

/-- An array whose entries are uninitialised. -/
def uninit (n : Nat) : Arr K := ⟨n, fun _ => none⟩

/-- An array all entries of which are `v`. -/
def const (n : Nat) (v : K) : Arr K := ⟨n, fun _ => some v⟩

/-- An array with given entries. -/
def ofList (l : List K) : Arr K := ⟨l.length, fun i => l[i]?⟩

/-- `a[i]` -/
def rd (a : Arr K) (i : Nat) : Res K :=
  if i < a.size then
    match a.val i with
    | some v => .ok v
    | none => .ub
  else .ub

/-- `a[i] = v` -/
def wr (a : Arr K) (i : Nat) (v : K) : Res (Arr K) :=
  if i < a.size then .ok ⟨a.size, fun j => if j = i then some v else a.val j⟩ else .ub

/-- All entries, in order. -/
def toList (a : Arr K) : Res (List K) := (List.range a.size).mapM a.rd

end Arr

/-- A two-dimensional array; indices are of type `int`, a negative one is out of bounds. -/
structure Arr2 (K : Type) where
  rows : Nat
  cols : Nat
  val : Int → Int → Option K

namespace Arr2

variable {K : Type}

/-- An array whose entries are uninitialised. -/
def uninit (m n : Nat) : Arr2 K := ⟨m, n, fun _ _ => none⟩

/-- The indices are within the bounds. -/
def inb (a : Arr2 K) (i j : Int) : Bool := decide (0 ≤ i ∧ i < a.rows ∧ 0 ≤ j ∧ j < a.cols)

/-- `a(i, j)` -/
def rd (a : Arr2 K) (i j : Int) : Res K :=
  if a.inb i j then
    match a.val i j with
    | some v => .ok v
    | none => .ub
  else .ub

/-- `a(i, j) = v` -/
def wr (a : Arr2 K) (i j : Int) (v : K) : Res (Arr2 K) :=
  if a.inb i j then .ok ⟨a.rows, a.cols, fun k l => if k = i ∧ l = j then some v else a.val k l⟩
  else .ub

end Arr2

end DDC
