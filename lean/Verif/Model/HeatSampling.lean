import Verif.Model.HeatEquation
import Verif.Model.Reducer

/-!
# The heat equation of the examples by distances between points

`main` of `/repo/examples/heat_equation.cpp` (uniform samplings) and of
`/repo/examples/non_uniform_heat_equation.cpp` (non-uniform samplings): the same as `/repo/examples/uniform_heat_equation.cpp`
(`Model/HeatEquation`), except for the domains, the time step and the increments.  Same simplifications; the numbers drawn by
`generate_random_vector` are arguments.
-/

namespace DDC.Heat

variable {K : Type} [Field K] [LinearOrder K]

/-- `ddc::coordinate`, `ddc::distance_at_left` and `ddc::distance_at_right` for a dimension. -/
structure Sampler (K : Type) where
  coordinate : Elem Dim → Res K
  left : Elem Dim → Res K
  right : Elem Dim → Res K

/-- The functions of a uniform sampling (uniform_point_sampling.hpp lines 245-285). -/
def uniformSampler (u : Uniform Dim K) : Sampler K :=
  ⟨u.coordinate, fun e => .ok (u.distanceAtLeft e), fun e => .ok (u.distanceAtRight e)⟩

/-- The functions of a non-uniform sampling (non_uniform_point_sampling.hpp lines 218-237). -/
def nonUniformSampler (u : NonUniform Dim K) : Sampler K := ⟨u.coordinate, u.distanceAtLeft, u.distanceAtRight⟩

/-- `invdx2_max`, `invdy2_max` (heat_equation.cpp lines 171-185, non_uniform_heat_equation.cpp lines 212-226). -/
def invMax (S : Sampler K) (d : Dom Dim) : Res K :=
  Support.transformReduce (Dom.support d) 0 (fun a b => .ok (Reducer.max a b)) (fun i => do
    let l ← S.left i
    let r ← S.right i
    .ok (1 / (l * r)))

/-- What is added in a dimension (heat_equation.cpp lines 285-301, non_uniform_heat_equation.cpp lines 324-340); the distances
are computed here instead of at the beginning of the kernel. -/
def distanceInc (S : Sampler K) (k dt : K) (i : Elem Dim) (r c l : K) : Res K := do
  let dl ← S.left i
  let dr ← S.right i
  let dm := 1 / 2 * (dl + dr)
  .ok (k * dt * (dl * r - 2 * dm * c + dr * l) / (dl * dm * dr))

/-- From the time step to the end (heat_equation.cpp lines 169-327, non_uniform_heat_equation.cpp lines 211-365). -/
def solve [FloorRing K] (kx ky startTime endTime : K) (A B : Axis) (X Y : Sampler K) (temp : K → K → K) (junk : Nat → K)
    (order : List (List I64)) (orders : Nat → Orders) : Res (Mem K × View (Dom Dim)) := do
  let mx ← invMax X A.main
  let my ← invMax Y B.main
  let dt := 1 / 2 / (kx * mx + ky * my)
  let n ← ceilCast ((endTime - startTime) / dt)
  let n ← Vect.addInt [(Dim.t, n)] 1
  let (ut, time) ← Uniform.init Dim.t startTime endTime n
  let (mem, last, next) ← allocate A B X.coordinate Y.coordinate temp junk order
  let time ← Dom.removeFirst time [(Dim.t, 1)]
  let n ← Dom.size time
  timeLoop (· + ·) (distanceInc X kx ut.step) (distanceInc Y ky ut.step) A B orders n.toNat 0 last next mem

/-- `main` (heat_equation.cpp lines 84-327). -/
def mainDistances [FloorRing K] (p : Params K) (temp : K → K → K) (junk : Nat → K) (order : List (List I64))
    (orders : Nat → Orders) : Res (Mem K × View (Dom Dim)) := do
  let (ux, xMain, xGhosted, xPre, xPost) ← Uniform.initGhosted1 .x p.xStart p.xEnd [(.x, p.nx)] [(.x, 1)]
  let A ← Axis.ofGhosted xMain xGhosted xPre xPost
  let (uy, yMain, yGhosted, yPre, yPost) ← Uniform.initGhosted1 .y p.yStart p.yEnd [(.y, p.ny)] [(.y, 1)]
  let B ← Axis.ofGhosted yMain yGhosted yPre yPost
  solve p.kx p.ky p.startTime p.endTime A B (uniformSampler ux) (uniformSampler uy) temp junk order orders

/-- `generate_random_vector(n, lower_bound, higher_bound)` (non_uniform_heat_equation.cpp lines 24-54); `dis i` is the number
drawn for point `i`, in `[-0.1, 0.1)`. -/
def generate (n : BitVec 32) (lo hi : K) (dis : Nat → K) : Res (List K) := do
  Res.guardAbort (decide (1 < n.toInt))
  Res.guardAbort (decide (lo < hi))
  let dx := (hi - lo) / ((n.toInt - 1 : Int) : K)
  let points := (List.range n.toInt.toNat).map (fun (i : Nat) => lo + (i : K) * dx)
  let points := points.mapIdx (fun i x => if 1 ≤ i ∧ (i : Int) < n.toInt - 1 then x + dis i * dx else x)
  Res.guardAbort (isSorted points)
  .ok points

/-- `points.back() - points.front()` (non_uniform_heat_equation.cpp lines 64, 82); undefined without points. -/
def period (points : List K) : Res K :=
  match points.getLast?, points.head? with
  | some b, some a => .ok (b - a)
  | _, _ => .ub

/-- `periodic_extrapolation_left(gw, points)` (non_uniform_heat_equation.cpp lines 56-72). -/
def extrapolateLeft (gw : Nat) (points : List K) : Res (List K) := do
  Res.guardAbort (decide (gw < points.length))
  Res.guardAbort (isSorted points)
  if 0 < gw then do
    let p ← period points
    .ok (((points.reverse.drop 1).take gw).map (fun x => x - p)).reverse
  else .ok []

/-- `periodic_extrapolation_right(gw, points)` (non_uniform_heat_equation.cpp lines 74-90). -/
def extrapolateRight (gw : Nat) (points : List K) : Res (List K) := do
  Res.guardAbort (decide (gw < points.length))
  Res.guardAbort (isSorted points)
  if 0 < gw then do
    let p ← period points
    .ok (((points.drop 1).take gw).map (fun x => x + p))
  else .ok []

/-- `main` (non_uniform_heat_equation.cpp lines 145-365). -/
def mainNonUniform [FloorRing K] (p : Params K) (disX disY : Nat → K) (temp : K → K → K) (junk : Nat → K)
    (order : List (List I64)) (orders : Nat → Orders) : Res (Mem K × View (Dom Dim)) := do
  let xs ← generate (p.nx.truncate 32) p.xStart p.xEnd disX
  let xPreV ← extrapolateLeft 1 xs
  let xPostV ← extrapolateRight 1 xs
  let (ux, xMain, xGhosted, xPre, xPost) ← NonUniform.initGhosted .x xs xPreV xPostV
  let A ← Axis.ofGhosted xMain xGhosted xPre xPost
  let ys ← generate (p.ny.truncate 32) p.yStart p.yEnd disY
  let yPreV ← extrapolateLeft 1 ys
  let yPostV ← extrapolateRight 1 ys
  let (uy, yMain, yGhosted, yPre, yPost) ← NonUniform.initGhosted .y ys yPreV yPostV
  let B ← Axis.ofGhosted yMain yGhosted yPre yPost
  solve p.kx p.ky p.startTime p.endTime A B (nonUniformSampler ux) (nonUniformSampler uy) temp junk order orders

end DDC.Heat
