import Verif.Model.HeatEquation
import Verif.Model.RoundedAdvection
import Verif.Model.RoundedSampling

/-!
# The heat equation of the examples, with rounding

`main` of `/repo/examples/uniform_heat_equation.cpp` where every floating-point operation is followed by a rounding `fl` (see
`Model/Rounded.lean` for the limits; without rounding: `Model/HeatEquation.lean`, whose simplifications hold here, too).
-/

namespace DDC.RoundedHeat

open Rounded
open Heat (Dim Axis Orders Params allocate timeLoop)
open RoundedAdvection (ceilCast)

variable (fl : Rat → Rat)

/-- The addition of `+=` (lines 238, 243). -/
def add (x y : Rat) : Rat := fl (x + y)

/-- What is added in a dimension (lines 238-241, 243-246); the products are taken from left to right. -/
def incOf (k dt inv r c l : Rat) : Rat := fl (fl (fl (k * dt) * fl (fl (r - fl (2 * c)) + l)) * inv)

/-- Idem, as the kernel takes it. -/
def inc (k dt inv : Rat) (_ : Elem Dim) (r c l : Rat) : Res Rat := .ok (incOf fl k dt inv r c l)

/-- `invdx2` and `invdy2` (lines 137-138). -/
def invSquare (d : Rat) : Rat := fl (1 / fl (d * d))

/-- `dt` (line 140): the longest stable time step, as computed. -/
def stableDt (kx invdx2 ky invdy2 : Rat) : Rat := fl (1 / 2 / fl (fl (kx * invdx2) + fl (ky * invdy2)))

/-- `main` (lines 72-271), like `Heat.main`.  `temp` is the function of line 175, with its own rounding. -/
def main (p : Params Rat) (temp : Rat → Rat → Rat) (junk : Nat → Rat) (order : List (List I64)) (orders : Nat → Orders) :
    Res (Mem Rat × View (Dom Dim)) := do
  let (ux, xMain, xGhosted, xPre, xPost) ← uniformInitGhosted1 fl .x p.xStart p.xEnd [(.x, p.nx)] [(.x, 1)]
  let A ← Axis.ofGhosted xMain xGhosted xPre xPost
  let (uy, yMain, yGhosted, yPre, yPost) ← uniformInitGhosted1 fl .y p.yStart p.yEnd [(.y, p.ny)] [(.y, 1)]
  let B ← Axis.ofGhosted yMain yGhosted yPre yPost
  let invdx2 := invSquare fl ux.step
  let invdy2 := invSquare fl uy.step
  let dt := stableDt fl p.kx invdx2 p.ky invdy2
  let n ← ceilCast fl (fl (fl (p.endTime - p.startTime) / dt))
  let n ← Vect.addInt [(Dim.t, n)] 1
  let (ut, time) ← uniformInit fl Dim.t p.startTime p.endTime n
  let (mem, last, next) ← allocate A B (uniformCoordinate fl ux) (uniformCoordinate fl uy) temp junk order
  let time ← Dom.removeFirst time [(Dim.t, 1)]
  let n ← Dom.size time
  timeLoop (add fl) (inc fl p.kx ut.step invdx2) (inc fl p.ky ut.step invdy2) A B orders n.toNat 0 last next mem

end DDC.RoundedHeat
