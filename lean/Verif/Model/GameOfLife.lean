import Verif.Model.View
import Verif.Model.Space
import Verif.Model.HeatEquation

/-!
# The game of life of the examples

`/repo/examples/game_of_life.cpp`.  `nt`, `length` and `height` of lines 49-51 are arguments.  The printing of
lines 83 and 115 is replaced by recording the memory: what is printed is the host chunk of that memory (C51).  A kernel is
complete when the function that launches it returns (C66).  The dimensions are named as in `Model/HeatEquation.lean`.
-/

namespace DDC.Life

open Heat (Dim)

/-- `blinker_init` (game_of_life.cpp lines 23-39). -/
def blinkerInit (order : List (List I64)) (domain : Dom Dim) (cells : View (Dom Dim)) (mem : Mem Bool) : Res (Mem Bool) := do
  let d ← Dom.removeFirst domain [(.x, 1), (.y, 2)]
  let alive ← Dom.takeFirst d [(.x, 3), (.y, 1)]
  Support.runSchedule (Dom.support domain) (fun ixy mem => do
    let c ← Dom.contains alive [ixy]
    View.put mem cells [ixy] c) order mem

/-- The loops that count (game_of_life.cpp lines 89-97); the `int` is an integer, it is at most 9. -/
def count (cells : View (Dom Dim)) (mem : Mem Bool) (ix iy : Elem Dim) : Res Int :=
  Support.loop 2 (fun i s =>
    Support.loop 2 (fun j s => do
      let a ← Elem.addInt ix (BitVec.ofInt 64 i)
      let b ← Elem.addInt iy (BitVec.ofInt 64 j)
      let c ← View.get mem cells [a, b]
      if c then .ok (s + 1) else .ok s) (-1) s) (-1) 0

/-- The kernel (game_of_life.cpp lines 86-110). -/
def kernel (cellsIn cellsOut : View (Dom Dim)) (ixy : Elem Dim) (mem : Mem Bool) : Res (Mem Bool) := do
  let ix ← Tup.select [.x] ixy
  let iy ← Tup.select [.y] ixy
  let n ← count cellsIn mem ix iy
  let c ← View.get mem cellsIn [ixy]
  if c then
    let n := n - 1
    if n < 2 ∨ 3 < n then View.put mem cellsOut [ixy] false else .ok mem
  else
    if n = 3 then View.put mem cellsOut [ixy] true else .ok mem

/-- The orders of the assignments of the two copies and of the iterations of the kernel in a round. -/
structure Orders where
  toHost : List (List U64)
  kernel : List (List I64)
  back : List (List U64)

/-- `n` rounds of the loop, from round `k` on (game_of_life.cpp lines 80-113): the memory, and the memories that are
printed. -/
def loop (inner : Dom Dim) (cellsIn cellsOut host : View (Dom Dim)) (orders : Nat → Orders) :
    Nat → Nat → Mem Bool → Res (Mem Bool × List (Mem Bool))
  | 0, _, mem => .ok (mem, [])
  | n + 1, k, mem => do
    let (mem, _) ← parallelDeepcopy Dom.spanOps Dom.eq (orders k).toHost mem host cellsIn
    let printed := mem
    let mem ← Support.runSchedule (Dom.support inner) (kernel cellsIn cellsOut) (orders k).kernel mem
    let (mem, _) ← parallelDeepcopy Dom.spanOps Dom.eq (orders k).back mem cellsIn cellsOut
    let (mem, l) ← loop inner cellsIn cellsOut host orders n (k + 1) mem
    .ok (mem, printed :: l)

/-- `main` (game_of_life.cpp lines 41-118): the memories that are printed and the host chunk.  Memory space 1 is that of
the device. -/
def main (nt length height : BitVec 32) (junk : Nat → Bool) (initIn initOut : List (List I64)) (orders : Nat → Orders) :
    Res (List (Mem Bool) × View (Dom Dim)) := do
  let domainX ← initTrivialBounded Dim.x (length.setWidth 64)
  let domainY ← initTrivialBounded Dim.y (height.setWidth 64)
  let domain ← Dom.ofDomains [.x, .y] [domainX, domainY]
  let inner ← Dom.remove domain [(.x, 1), (.y, 1)] [(.x, 1), (.y, 1)]
  let (mem, cellsIn) ← newChunk Dom.spanOps junk 1 [] domain
  let (mem, cellsOut) ← newChunk Dom.spanOps junk 1 mem domain
  let (mem, host) ← createMirror Dom.spanOps junk 0 mem cellsIn
  let mem ← blinkerInit initIn domain cellsIn mem
  let mem ← blinkerInit initOut domain cellsOut mem
  let (mem, l) ← loop inner cellsIn cellsOut host orders nt.toNat 0 mem
  let (mem, _) ← parallelDeepcopy Dom.spanOps Dom.eq (orders nt.toNat).toHost mem host cellsIn
  .ok (l ++ [mem], host)

end DDC.Life
