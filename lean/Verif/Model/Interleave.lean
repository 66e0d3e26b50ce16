import Verif.Model.ForEach

/-!
# Interleaved iterations

`parallel_for_each` (`/repo/src/ddc/parallel_for_each.hpp`) on a backend that runs the iterations at the same time:
the functor of an iteration is a program that reads and writes cells one at a time, and the accesses of different
iterations are interleaved in any way.  A simplification: every access is atomic and takes effect at once (sequential
consistency), which is what C++ guarantees for programs without data races.
-/

namespace DDC

/-- The accesses of one iteration to a memory `κ → V`. -/
inductive Prog (κ V : Type) where
  | done : Prog κ V
  | read : κ → (V → Prog κ V) → Prog κ V
  | write : κ → V → Prog κ V → Prog κ V

variable {κ V : Type} [DecidableEq κ]

/-- The memory with `v` in the cell `c`. -/
def Prog.store (mem : κ → V) (c : κ) (v : V) : κ → V := fun c' => if c' = c then v else mem c'

/-- The program alone. -/
def Prog.run : Prog κ V → (κ → V) → (κ → V)
  | .done, mem => mem
  | .read c k, mem => (k (mem c)).run mem
  | .write c v k, mem => k.run (store mem c v)

/-- One access of one of the programs, the others wait. -/
inductive Interleaved : List (Prog κ V) → (κ → V) → List (Prog κ V) → (κ → V) → Prop where
  | read (before after : List (Prog κ V)) (c : κ) (k : V → Prog κ V) (mem : κ → V) :
      Interleaved (before ++ .read c k :: after) mem (before ++ k (mem c) :: after) mem
  | write (before after : List (Prog κ V)) (c : κ) (v : V) (k : Prog κ V) (mem : κ → V) :
      Interleaved (before ++ .write c v k :: after) mem (before ++ k :: after) (Prog.store mem c v)

variable {τ : Type} [DecidableEq τ]

/-- The programs of the iterations of the policy `pol`: `ForEachKokkosLambdaAdapter::operator()`
(parallel_for_each.hpp lines 42-52) for every index tuple of the policy. -/
def Support.launch (S : Support τ) (f : Elem τ → Prog κ V) (pol : List (List I64)) : Res (List (Prog κ V)) :=
  pol.mapM fun ids => do
    let e ← Support.adapter S ids
    .ok (f e)

end DDC
