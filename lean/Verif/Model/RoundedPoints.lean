import Verif.Model.Rounded
import Verif.Model.Points

/-!
# Greville points, with rounding

The Greville points with every floating-point operation followed by a rounding `fl` (see `Model/Rounded.lean`),
for the uniform sampling of uniform B-splines and for non-uniform B-splines that are not periodic.  Not
modelled with rounding: the points near the edges of uniform B-splines with a `GREVILLE` closure, and periodic
non-uniform B-splines.
-/

namespace DDC.Rounded

variable (fl : Rat → Rat)

/-- `dx` (greville_interpolation_points.hpp lines 53-55). -/
def Knots.dx (k : Knots) : Rat := fl (fl (k.rmax fl - k.rmin fl) / k.n)

/-- A point of the sampling of `uniform_greville_points` (greville_interpolation_points.hpp lines 52, 56-60),
through `UniformPointSampling::coordinate` (uniform_point_sampling.hpp lines 124-128). -/
def Knots.grevillePoint (k : Knots) (i : Nat) : Rat :=
  let shift : Rat := if k.p % 2 = 0 then 1 / 2 else 0
  fl (fl (k.rmin fl + fl (shift * k.dx fl)) + fl (i * k.dx fl))

/-- `v[i] += x` -/
def addTo (a : Arr Rat) (i : Nat) (x : Rat) : Res (Arr Rat) := do
  let v ← a.rd i
  a.wr i (fl (v + x))

/-- `v[i] /= x` -/
def divBy (a : Arr Rat) (i : Nat) (x : Rat) : Res (Arr Rat) := do
  let v ← a.rd i
  a.wr i (fl (v / x))

/-- A Greville point of non-uniform B-splines (greville_interpolation_points.hpp lines 94-104).  The conversion
of the degree to `double` is exact. -/
def grevilleOne (u : NUBS Rat) (ib0 ib : Elem Unit) (pts : Arr Rat) : Res (Arr Rat) := do
  let i ← indexOf ib ib0
  let pts ← pts.wr i 0
  let f ← u.firstSupportKnot ib
  let f ← Elem.addInt f 1
  let d ← Dom.ofSize f (ve1 (BitVec.ofNat 64 u.degree))
  let pts ← hostForEach1 d (fun ik pts => do
    let x ← u.knots.coordinate ik
    addTo fl pts i x) pts
  divBy fl pts i (u.degree : Rat)

/-- `non_uniform_greville_points` if the B-splines are not periodic (greville_interpolation_points.hpp lines
71-105, 130). -/
def grevilleOpen (u : NUBS Rat) : Res (NonUniform Unit Rat) := do
  let nb ← u.nbasis
  let full ← u.fullDomain
  let d ← Dom.takeFirst full (ve1 nb)
  let pts ← hostForEach1 d (grevilleOne fl u (Dom.front d)) (Arr.const nb.toNat 0)
  let l ← pts.toList
  NonUniform.mk' () l

end DDC.Rounded
