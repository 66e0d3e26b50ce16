import Verif.Model.HeatOutput
import Verif.Model.Advection

/-!
# The output of the advection by characteristics

`main` of `/repo/examples/characteristics_advection.cpp` with its output.

Simplifications: those of `Model/Advection` and `Model/HeatOutput`; the restrictions `[x_domain][y_domain]` to the whole domain are left
out, and the line `density[yslice]` is read through the elements of the chunk it is a line of (slices are the subject of C16).
-/

namespace DDC.Advection

open Heat (Shown ceilCast)

section

variable {K : Type} [Field K] [LinearOrder K]

/-- `display` (characteristics_advection.cpp lines 77-96) of the chunk `f` on `mesh`. -/
def display (time : K) (mesh : Dom Dim) (f : Mat K) : Res (Shown K) := do
  let sum ← Support.transformReduce (Dom.support mesh) 0 (fun a b => .ok (Reducer.sum a b)) (fun e => do
    let (i, j) ← place mesh e
    f.rd i j)
  let size ← Dom.size mesh
  let y ← Dom.ofDomains [.y] [mesh]
  let ny ← Dom.size y
  let id : I64 := ny / 2
  let iy ← Elem.addVec (Dom.front y) [(.y, id)]
  let x ← Dom.ofDomains [.x] [mesh]
  let values ← Support.forEach (Dom.support x) (fun ix l => do
    let (i, j) ← place mesh (ix ++ iy)
    let v ← f.rd i j
    .ok (l ++ [v])) []
  .ok ⟨time, sum / (size.toNat : K), id, values⟩

/-- The chunks of the time loop: `last_density_alloc`, `next_density_alloc`, `coef_alloc`, `feet_coords_alloc` (lines 158-168, 224-232). -/
structure Chunks (K : Type) where
  last : Mat K
  next : Mat K
  coef : Mat K
  feet : Mat K

/-- A round of the time loop before its output (lines 240-259). -/
def round [FloorRing K] (L : Lapack K) (B : Builder K) (s : Eval.Side K) (coord : Elem Unit → Res K) (vx dt : K) (mesh : Dom Dim)
    (r : Round K) (c : Chunks K) : Res (Chunks K) := do
  let feet ← Support.runSchedule (Dom.support mesh) (foot coord vx dt mesh) r.order c.feet
  let coef ← B.apply L r.build r.junk c.coef c.last none none
  let next ← Eval.evalMesh1 r.eval s feet coef c.next
  .ok ⟨c.last, next, coef, feet⟩

/-- `main` with its output (lines 99-282): what is shown, and `last_density_alloc` at the end.  The arguments are those of `main`.  The
initial output (lines 194-200) comes after the construction of the builder and the allocation of the coefficients and the feet (lines
203-232) here, which do not write the densities. -/
def mainShown [FloorRing K] (L : Lapack K) (periodic : Bool) (p : Params K) (period : I64) (density : K → K → K)
    (junk : Nat → Nat → Nat → K) (order : List (List I64)) (setup : Sched) (rounds : Nat → Round K) : Res (List (Shown K) × Mat K) := do
  let u ← UBS.mk' 3 periodic p.xStart p.xEnd p.nx
  let c := sbc periodic
  let coord ← sampling u c
  let x ← u.grevilleDomain c c
  let (uy, y) ← Uniform.init .y p.yStart p.yEnd [(Dim.y, p.ny)]
  let n ← ceilCast ((p.endTime - p.startTime) / p.maxDt)
  let n ← Vect.addInt [(Dim.t, n)] 1
  let (ut, time) ← Uniform.init Dim.t p.startTime p.endTime n
  let mesh ← Dom.ofDomains [.x, .y] [name .x x, y]
  let nx ← Dom.size x
  let ny ← Dom.size y
  let last ← Support.runSchedule (Dom.support mesh) (initial coord uy density mesh) order ⟨nx.toNat, ny.toNat, junk 0⟩
  let next : Mat K := ⟨nx.toNat, ny.toNat, junk 1⟩
  let B ← Builder.mk' L setup (.uniform u) c c x coord
  let spl ← u.fullDomain
  let nb ← Dom.size spl
  let coef : Mat K := ⟨nb.toNat, ny.toNat, junk 2⟩
  let feet : Mat K := ⟨nx.toNat, ny.toNat, junk 3⟩
  let (out, s) ← Output.run (S := Chunks K) period
    (fun i s => round L B ⟨.uniform u, rule periodic, rule periodic⟩ coord p.vx ut.step mesh (rounds i) s)
    (fun iter s => do
      let t ← ut.coordinate iter
      display t mesh s.next)
    (fun iter s => do
      let t ← ut.coordinate iter
      display t mesh s.last)
    (fun s => ⟨s.next, s.last, s.coef, s.feet⟩) time [(Dim.t, 1)] ⟨last, next, coef, feet⟩
  .ok (out, s.last)

end

end DDC.Advection
