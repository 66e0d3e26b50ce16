import Verif.Model.Evaluator
import Verif.Model.HeatEquation

/-!
# The advection of the examples by characteristics

`main` of `/repo/examples/characteristics_advection.cpp`: the domains, the time step, the initial density and the time loop.
The parameters of lines 107-130 are arguments.

Simplifications: numbers are elements of a linearly ordered field; a chunk on the two dimensions is a `Mat`, as in
`Model/Builder`, with a row for each element along `DDimX` (or for each B-spline) and a column for each element along `DDimY`;
the display and the copies to the host that only serve it (lines 77-96, 191-200, 262-268, 276-281) are left out; a kernel is
complete when the function that launches it returns (C66); `ddc::init_discrete_space` hands the attributes over unchanged
(C25, C68).
-/

namespace DDC.Advection

open Heat (ceilCast)

/-- `DDimX`, `DDimY`, `DDimT` (lines 44-75). -/
inductive Dim
  | x
  | y
  | t
  deriving DecidableEq, Repr

/-- The parameters (lines 107-130). -/
structure Params (K : Type) where
  xStart : K
  xEnd : K
  nx : U64
  vx : K
  yStart : K
  yEnd : K
  ny : I64
  startTime : K
  endTime : K
  maxDt : K

/-- An element of `DDimX` as an element of the mesh of the spline builder, whose only dimension has no name. -/
def unname (e : Elem Dim) : Elem Unit := e.map fun p => ((), p.2)

/-- A domain of `DDimX` out of one of the mesh of the spline builder. -/
def name (t : Dim) (d : Dom Unit) : Dom Dim := d.map fun p => (t, p.2)

/-- The row and the column of `chunk(delem)` in a chunk on `d`, with the assertion (chunk_span.hpp lines 354-368). -/
def place (d : Dom Dim) (e : Elem Dim) : Res (Nat × Nat) := do
  let b ← Dom.contains d [e]
  Res.guardAbort b
  let v ← Dom.distanceFromFront d [e]
  match v with
  | [p, q] => .ok (p.2.toNat, q.2.toNat)
  | _ => .ill

section

variable {K : Type} [Field K] [LinearOrder K]

/-- `s_sbc` (lines 35-41). -/
def sbc (periodic : Bool) : Closure := if periodic then .periodic else .greville

/-- `ExtrapolationRule` (lines 35-41). -/
def rule (periodic : Bool) : Eval.Rule K := if periodic then Eval.periodicRule else Eval.nullRule

/-- `ddc::coordinate` on `DDimX`, after `init_discrete_space<DDimX>(GrevillePoints::get_sampling<DDimX>())` (lines 49-52, 138):
`interpolation_discrete_dimension_type` is uniform or not (greville_interpolation_points.hpp lines 138-139, 275-278). -/
def sampling (u : UBS K) (c : Closure) : Res (Elem Unit → Res K) :=
  if u.grevilleIsUniform c c then do
    let s ← u.grevilleUniform
    .ok s.coordinate
  else do
    let s ← u.grevilleMixed c c
    .ok s.coordinate

/-- The initial density (lines 181-188): an iteration; `density` is the function of line 186. -/
def initial (coord : Elem Unit → Res K) (uy : Uniform Dim K) (density : K → K → K) (mesh : Dom Dim) (ixy : Elem Dim) (f : Mat K) :
    Res (Mat K) := do
  let ix ← Tup.select [.x] ixy
  let x ← coord (unname ix)
  let iy ← Tup.select [.y] ixy
  let y ← uy.coordinate iy
  let (i, j) ← place mesh ixy
  f.wr i j (density x y)

/-- The feet of the characteristics (lines 251-256): an iteration. -/
def foot (coord : Elem Unit → Res K) (vx dt : K) (mesh : Dom Dim) (e : Elem Dim) (feet : Mat K) : Res (Mat K) := do
  let ix ← Tup.select [.x] e
  let x ← coord (unname ix)
  let (i, j) ← place mesh e
  feet.wr i j (x - vx * dt)

/-- What a round of the time loop does not determine: the orders of the iterations of the three kernels and the content of the
temporary of the builder. -/
structure Round (K : Type) where
  order : List (List I64)
  build : Sched
  junk : Nat → Nat → K
  eval : Sched

/-- `n` rounds of the time loop, from round `i` on (lines 237-274); `std::swap` makes the chunk that the evaluator has written
the last one.  Returns `last_density_alloc`. -/
def timeLoop [FloorRing K] (L : Lapack K) (B : Builder K) (s : Eval.Side K) (coord : Elem Unit → Res K) (vx dt : K)
    (mesh : Dom Dim) (rounds : Nat → Round K) : Nat → Nat → Mat K → Mat K → Mat K → Mat K → Res (Mat K)
  | 0, _, last, _, _, _ => .ok last
  | n + 1, i, last, next, coef, feet => do
    let feet ← Support.runSchedule (Dom.support mesh) (foot coord vx dt mesh) (rounds i).order feet
    let coef ← B.apply L (rounds i).build (rounds i).junk coef last none none
    let next ← Eval.evalMesh1 (rounds i).eval s feet coef next
    timeLoop L B s coord vx dt mesh rounds n (i + 1) next last coef feet

/-- `main` (lines 99-282): `last_density_alloc` at the end.  `s_degree` is 3 (line 20); `periodic` tells whether
`PERIODIC_DOMAIN` is defined; `order` is the order of the iterations of the first kernel, `setup` the ones of the kernels of the
constructor of the builder; `junk k` is what chunk number `k` holds when it is allocated: the two densities, the coefficients
and the feet. -/
def main [FloorRing K] (L : Lapack K) (periodic : Bool) (p : Params K) (density : K → K → K) (junk : Nat → Nat → Nat → K)
    (order : List (List I64)) (setup : Sched) (rounds : Nat → Round K) : Res (Mat K) := do
  let u ← UBS.mk' 3 periodic p.xStart p.xEnd p.nx
  let c := sbc periodic
  let coord ← sampling u c
  let x ← u.grevilleDomain c c
  let (uy, y) ← Uniform.init .y p.yStart p.yEnd [(Dim.y, p.ny)]
  let n ← ceilCast ((p.endTime - p.startTime) / p.maxDt)
  let n ← Vect.addInt [(Dim.t, n)] 1
  let (ut, time) ← Uniform.init Dim.t p.startTime p.endTime n
  let mesh ← Dom.ofDomains [.x, .y] [name .x x, y]
  let nx ← Dom.size x
  let ny ← Dom.size y
  let last ← Support.runSchedule (Dom.support mesh) (initial coord uy density mesh) order ⟨nx.toNat, ny.toNat, junk 0⟩
  let next : Mat K := ⟨nx.toNat, ny.toNat, junk 1⟩
  let B ← Builder.mk' L setup (.uniform u) c c x coord
  let spl ← u.fullDomain
  let nb ← Dom.size spl
  let coef : Mat K := ⟨nb.toNat, ny.toNat, junk 2⟩
  let feet : Mat K := ⟨nx.toNat, ny.toNat, junk 3⟩
  let time ← Dom.removeFirst time [(Dim.t, 1)]
  let n ← Dom.size time
  timeLoop L B ⟨.uniform u, rule periodic, rule periodic⟩ coord p.vx ut.step mesh rounds n.toNat 0 last next coef feet

end

end DDC.Advection
