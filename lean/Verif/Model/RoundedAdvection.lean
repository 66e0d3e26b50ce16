import Verif.Model.Advection
import Verif.Model.RoundedApply
import Verif.Model.RoundedPoints
import Verif.Model.RoundedSampling

/-!
# The advection of the examples by characteristics, with rounding

`main` of `/repo/examples/characteristics_advection.cpp` with `PERIODIC_DOMAIN` defined, as the file does (line 17), where every
floating-point operation is followed by a rounding `fl` (see `Model/Rounded.lean` for the limits; without rounding:
`Model/Advection.lean`, whose simplifications hold here, too).
-/

namespace DDC.RoundedAdvection

open Rounded Advection

variable (fl : Rat → Rat)

/-- `ddc::coordinate` on `DDimX` (lines 49-52, 138), a uniform point sampling that `GrevilleInterpolationPoints` computes
(greville_interpolation_points.hpp lines 55-68; uniform_point_sampling.hpp lines 124-128). -/
def coordX (k : Knots) : Elem Unit → Res Rat := fun e => do
  let i ← uid1 e
  .ok (k.grevillePoint fl i.toNat)

/-- `static_cast<std::ptrdiff_t>(std::ceil(x) + .2)` (lines 151-152): `std::ceil` is exact. -/
def ceilCast (x : Rat) : Res I64 :=
  let y : Rat := fl ((⌈x⌉ : Rat) + fl (1 / 5))
  let z := if 0 ≤ y then ⌊y⌋ else ⌈y⌉
  if -2 ^ 63 ≤ z ∧ z < 2 ^ 63 then .ok (BitVec.ofInt 64 z) else .ub

/-- The initial density (lines 181-188): an iteration.  `density` is the function of line 186, with its own rounding. -/
def initial (coord : Elem Unit → Res Rat) (uy : Uniform Dim Rat) (density : Rat → Rat → Rat) (mesh : Dom Dim) (ixy : Elem Dim)
    (f : Mat Rat) : Res (Mat Rat) := do
  let ix ← Tup.select [.x] ixy
  let x ← coord (unname ix)
  let iy ← Tup.select [.y] ixy
  let y ← uniformCoordinate fl uy iy
  let (i, j) ← place mesh ixy
  f.wr i j (density x y)

/-- The foot of the characteristic that ends in `x` (lines 252-255). -/
def footOf (vx dt x : Rat) : Rat := fl (x - fl (vx * dt))

/-- The feet of the characteristics (lines 251-256): an iteration. -/
def foot (coord : Elem Unit → Res Rat) (vx dt : Rat) (mesh : Dom Dim) (e : Elem Dim) (feet : Mat Rat) : Res (Mat Rat) := do
  let ix ← Tup.select [.x] e
  let x ← coord (unname ix)
  let (i, j) ← place mesh e
  feet.wr i j (footOf fl vx dt x)

/-- `operator()` of the evaluator on a mesh (spline_evaluator.hpp lines 256-294), like `Eval.evalMesh1`.  The rules are
`PeriodicExtrapolationRule` (periodic_extrapolation_rule.hpp lines 17-23: the assertion on a literal never fails). -/
def evalMesh (k : Knots) (σ : Sched) (coords coef out : Mat Rat) : Res (Mat Rat) :=
  Builder.colLoop σ (fun j => forLoop (fun i out => do
    let x ← coords.rd i j
    let y ← k.eval fl true (fun _ _ => .ok 0) (fun _ _ => .ok 0) x (Eval.column coef j)
    out.wr i j y) 0 out.rows) out

/-- `n` rounds of the time loop, from round `i` on (lines 237-274), like `Advection.timeLoop`. -/
def timeLoop (L : Lapack Rat) (B : Rounded.Builder) (k : Knots) (coord : Elem Unit → Res Rat) (vx dt : Rat) (mesh : Dom Dim)
    (rounds : Nat → Round Rat) : Nat → Nat → Mat Rat → Mat Rat → Mat Rat → Mat Rat → Res (Mat Rat)
  | 0, _, last, _, _, _ => .ok last
  | n + 1, i, last, next, coef, feet => do
    let feet ← Support.runSchedule (Dom.support mesh) (foot fl coord vx dt mesh) (rounds i).order feet
    let coef ← B.apply fl L (rounds i).build (rounds i).junk coef last none none
    let next ← evalMesh fl k (rounds i).eval feet coef next
    timeLoop L B k coord vx dt mesh rounds n (i + 1) next last coef feet

/-- `main` (lines 99-282), like `Advection.main`.  The domains of the B-splines and of the points do not depend on the
coordinates: they are computed by the functions of `Model/UBS.lean`. -/
def main (L : Lapack Rat) (p : Params Rat) (density : Rat → Rat → Rat) (junk : Nat → Nat → Nat → Rat) (order : List (List I64))
    (setup : Sched) (rounds : Nat → Round Rat) : Res (Mat Rat) := do
  let u ← UBS.mk' 3 true p.xStart p.xEnd p.nx
  let k := mkKnots fl p.xStart p.xEnd p.nx.toNat 3
  let coord := coordX fl k
  let x ← u.grevilleDomain .periodic .periodic
  let (uy, y) ← uniformInit fl .y p.yStart p.yEnd [(Dim.y, p.ny)]
  let n ← ceilCast fl (fl (fl (p.endTime - p.startTime) / p.maxDt))
  let n ← Vect.addInt [(Dim.t, n)] 1
  let (ut, time) ← uniformInit fl Dim.t p.startTime p.endTime n
  let mesh ← Dom.ofDomains [.x, .y] [name .x x, y]
  let nx ← Dom.size x
  let ny ← Dom.size y
  let last ← Support.runSchedule (Dom.support mesh) (initial fl coord uy density mesh) order ⟨nx.toNat, ny.toNat, junk 0⟩
  let next : Mat Rat := ⟨nx.toNat, ny.toNat, junk 1⟩
  let B ← Rounded.Builder.mk' fl L setup (.uniform k true) x coord
  let spl ← u.fullDomain
  let nb ← Dom.size spl
  let coef : Mat Rat := ⟨nb.toNat, ny.toNat, junk 2⟩
  let feet : Mat Rat := ⟨nx.toNat, ny.toNat, junk 3⟩
  let time ← Dom.removeFirst time [(Dim.t, 1)]
  let n ← Dom.size time
  timeLoop fl L B k coord p.vx ut.step mesh rounds n.toNat 0 last next coef feet

end DDC.RoundedAdvection
