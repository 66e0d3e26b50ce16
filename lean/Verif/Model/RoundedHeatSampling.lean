import Verif.Model.HeatSampling
import Verif.Model.RoundedHeat

/-!
# The heat equation of the examples by distances between points, with rounding

`main` of `/repo/examples/heat_equation.cpp` and of `/repo/examples/non_uniform_heat_equation.cpp` where every floating-point
operation is followed by a rounding `fl` (see `Model/Rounded.lean` for the limits; without rounding:
`Model/HeatSampling.lean`, whose simplifications hold here, too).
-/

namespace DDC.RoundedHeat

open Rounded
open Heat (Dim Axis Orders Params Sampler allocate timeLoop)
open RoundedAdvection (ceilCast)

variable (fl : Rat → Rat)

/-- The functions of a uniform sampling (uniform_point_sampling.hpp lines 245-285); the distances are the step, without an
operation. -/
def uniformSampler (u : Uniform Dim Rat) : Sampler Rat :=
  ⟨uniformCoordinate fl u, fun e => .ok (u.distanceAtLeft e), fun e => .ok (u.distanceAtRight e)⟩

/-- The functions of a non-uniform sampling (non_uniform_point_sampling.hpp lines 218-237): the difference of two
coordinates is rounded. -/
def nonUniformSampler (u : NonUniform Dim Rat) : Sampler Rat :=
  ⟨u.coordinate, fun e => do
    let d ← u.distanceAtLeft e
    .ok (fl d), fun e => do
    let d ← u.distanceAtRight e
    .ok (fl d)⟩

/-- `invdx2_max`, `invdy2_max` (heat_equation.cpp lines 171-185, non_uniform_heat_equation.cpp lines 212-226).  With a distance
that is zero the maximum is infinite, the time step is zero or not a number, and the conversion of the number of steps to an
integer is undefined; it is here that it is undefined, where there are no infinite numbers. -/
def invMax (S : Sampler Rat) (d : Dom Dim) : Res Rat :=
  Support.transformReduce (Dom.support d) 0 (fun a b => .ok (Reducer.max a b)) (fun i => do
    let l ← S.left i
    let r ← S.right i
    if fl (l * r) = 0 then .ub else .ok (fl (1 / fl (l * r))))

/-- What is added in a dimension (heat_equation.cpp lines 285-301, non_uniform_heat_equation.cpp lines 324-340), at a
point of distances `dl` and `dr`. -/
def distInc (k dt dl dr r c l : Rat) : Rat :=
  let dm := fl (1 / 2 * fl (dl + dr))
  fl (fl (fl (k * dt) * fl (fl (fl (dl * r) - fl (fl (2 * dm) * c)) + fl (dr * l))) / fl (fl (dl * dm) * dr))

/-- Idem, as the kernel takes it; the distances are computed here instead of at the beginning of the kernel. -/
def distanceInc (S : Sampler Rat) (k dt : Rat) (i : Elem Dim) (r c l : Rat) : Res Rat := do
  let dl ← S.left i
  let dr ← S.right i
  .ok (distInc fl k dt dl dr r c l)

/-- From the time step to the end (heat_equation.cpp lines 169-327, non_uniform_heat_equation.cpp lines 211-365). -/
def solve (kx ky startTime endTime : Rat) (A B : Axis) (X Y : Sampler Rat) (temp : Rat → Rat → Rat) (junk : Nat → Rat)
    (order : List (List I64)) (orders : Nat → Orders) : Res (Mem Rat × View (Dom Dim)) := do
  let mx ← invMax fl X A.main
  let my ← invMax fl Y B.main
  let dt := stableDt fl kx mx ky my
  let n ← ceilCast fl (fl (fl (endTime - startTime) / dt))
  let n ← Vect.addInt [(Dim.t, n)] 1
  let (ut, time) ← uniformInit fl Dim.t startTime endTime n
  let (mem, last, next) ← allocate A B X.coordinate Y.coordinate temp junk order
  let time ← Dom.removeFirst time [(Dim.t, 1)]
  let n ← Dom.size time
  timeLoop (add fl) (distanceInc fl X kx ut.step) (distanceInc fl Y ky ut.step) A B orders n.toNat 0 last next mem

/-- `main` (heat_equation.cpp lines 84-327). -/
def mainDistances (p : Params Rat) (temp : Rat → Rat → Rat) (junk : Nat → Rat) (order : List (List I64))
    (orders : Nat → Orders) : Res (Mem Rat × View (Dom Dim)) := do
  let (ux, xMain, xGhosted, xPre, xPost) ← uniformInitGhosted1 fl .x p.xStart p.xEnd [(.x, p.nx)] [(.x, 1)]
  let A ← Axis.ofGhosted xMain xGhosted xPre xPost
  let (uy, yMain, yGhosted, yPre, yPost) ← uniformInitGhosted1 fl .y p.yStart p.yEnd [(.y, p.ny)] [(.y, 1)]
  let B ← Axis.ofGhosted yMain yGhosted yPre yPost
  solve fl p.kx p.ky p.startTime p.endTime A B (uniformSampler fl ux) (uniformSampler fl uy) temp junk order orders

/-- `generate_random_vector(n, lower_bound, higher_bound)` (non_uniform_heat_equation.cpp lines 24-54); `dis i` is the number
drawn for point `i`.  The conversions of `n - 1` and `i` to `double` are exact. -/
def generate (n : BitVec 32) (lo hi : Rat) (dis : Nat → Rat) : Res (List Rat) := do
  Res.guardAbort (decide (1 < n.toInt))
  Res.guardAbort (decide (lo < hi))
  let dx := fl (fl (hi - lo) / ((n.toInt - 1 : Int) : Rat))
  let points := (List.range n.toInt.toNat).map (fun (i : Nat) => fl (lo + fl ((i : Rat) * dx)))
  let points := points.mapIdx (fun i x => if 1 ≤ i ∧ (i : Int) < n.toInt - 1 then fl (x + fl (dis i * dx)) else x)
  Res.guardAbort (isSorted points)
  .ok points

/-- `points.back() - points.front()` (non_uniform_heat_equation.cpp lines 64, 82); undefined without points. -/
def period (points : List Rat) : Res Rat :=
  match points.getLast?, points.head? with
  | some b, some a => .ok (fl (b - a))
  | _, _ => .ub

/-- `periodic_extrapolation_left(gw, points)` (non_uniform_heat_equation.cpp lines 56-72). -/
def extrapolateLeft (gw : Nat) (points : List Rat) : Res (List Rat) := do
  Res.guardAbort (decide (gw < points.length))
  Res.guardAbort (isSorted points)
  if 0 < gw then do
    let p ← period fl points
    .ok (((points.reverse.drop 1).take gw).map (fun x => fl (x - p))).reverse
  else .ok []

/-- `periodic_extrapolation_right(gw, points)` (non_uniform_heat_equation.cpp lines 74-90). -/
def extrapolateRight (gw : Nat) (points : List Rat) : Res (List Rat) := do
  Res.guardAbort (decide (gw < points.length))
  Res.guardAbort (isSorted points)
  if 0 < gw then do
    let p ← period fl points
    .ok (((points.drop 1).take gw).map (fun x => fl (x + p)))
  else .ok []

/-- `main` (non_uniform_heat_equation.cpp lines 145-365). -/
def mainNonUniform (p : Params Rat) (disX disY : Nat → Rat) (temp : Rat → Rat → Rat) (junk : Nat → Rat)
    (order : List (List I64)) (orders : Nat → Orders) : Res (Mem Rat × View (Dom Dim)) := do
  let xs ← generate fl (p.nx.truncate 32) p.xStart p.xEnd disX
  let xPreV ← extrapolateLeft fl 1 xs
  let xPostV ← extrapolateRight fl 1 xs
  let (ux, xMain, xGhosted, xPre, xPost) ← NonUniform.initGhosted .x xs xPreV xPostV
  let A ← Axis.ofGhosted xMain xGhosted xPre xPost
  let ys ← generate fl (p.ny.truncate 32) p.yStart p.yEnd disY
  let yPreV ← extrapolateLeft fl 1 ys
  let yPostV ← extrapolateRight fl 1 ys
  let (uy, yMain, yGhosted, yPre, yPost) ← NonUniform.initGhosted .y ys yPreV yPostV
  let B ← Axis.ofGhosted yMain yGhosted yPre yPost
  solve fl p.kx p.ky p.startTime p.endTime A B (nonUniformSampler fl ux) (nonUniformSampler fl uy) temp junk order orders

end DDC.RoundedHeat
