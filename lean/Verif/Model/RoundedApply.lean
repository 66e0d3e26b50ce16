import Verif.Model.RoundedBuilder
import Verif.Model.RoundedLinear

/-!
# `SplineBuilder`, with rounding

The constructor and `operator()` of `SplineBuilder` (spline_builder.hpp) for closures without equations on derivatives:
`PERIODIC`, or `GREVILLE` at both ends.  The floating-point operations are those of the B-splines, of the knots and of the
linear solvers (`Model/RoundedLinear.lean`); the rest moves values.  Not modelled: `m_dx`, that only the Hermite closures
read.  The simplifications of `Model/Builder.lean` on chunks, slices and counters hold here, too.
-/

namespace DDC.Rounded

variable (fl : Rat → Rat)

/-- `ddc::coordinate` of a knot. -/
def Spl.knot : Spl → Elem Unit → Res Rat
  | .uniform k _, e => do
    let i ← uid1 e
    .ok (k.coordinate fl i.toNat)
  | .nonUniform u, e => u.knots.coordinate e

/-- `break_point_domain().front()` (bsplines_uniform.hpp lines 134-147: the first knot that is not a ghost). -/
def Spl.breakFront : Spl → Elem Unit
  | .uniform k _ => el1 (BitVec.ofNat 64 k.p)
  | .nonUniform u => Dom.front u.breakDom

/-- The body of the loop of `check_valid_grid` (spline_builder.hpp lines 1293-1313), like `DDC.gridStep`. -/
def gridStep (bs : Spl) (coord : Elem Unit → Res Rat) (idx : Elem Unit) (s : Nat × Elem Unit) : Res (Nat × Elem Unit) := do
  let point ← coord idx
  let stop ← bs.knot fl s.2
  if stop < point then do
    checkPointsInCell bs.degree s.1
    let e ← Elem.addInt s.2 1
    .ok (1, e)
  else if point = stop then do
    checkPointsInCell bs.degree (s.1 + 1)
    let e ← Elem.addInt s.2 1
    .ok (1, e)
  else .ok (s.1 + 1, s.2)

/-- `check_valid_grid` (spline_builder.hpp lines 1280-1317). -/
def checkValidGrid (bs : Spl) (dom : Dom Unit) (coord : Elem Unit → Res Rat) : Res Unit := do
  let n ← Dom.size dom
  let nb ← bs.nbasis
  if n ≠ nb then .throw
  else do
    let e ← Elem.addInt bs.breakFront 1
    let s ← hostForEach1 dom (gridStep fl bs coord) (0, e)
    checkPointsInCell bs.degree s.1

/-- The members of `SplineBuilder` (spline_builder.hpp lines 184-196), like `DDC.Builder`. -/
structure Builder where
  bs : Spl
  dom : Dom Unit
  offset : Int
  matrix : LinProb Rat
  solver : Solver Rat

namespace Builder

/-- Constructor (spline_builder.hpp lines 227-260, 727-774). -/
def mk' (L : Lapack Rat) (σ : Sched) (bs : Spl) (dom : Dom Unit) (coord : Elem Unit → Res Rat) : Res Builder := do
  checkValidGrid fl bs dom coord
  let (offset, m) ← assemble fl bs dom coord
  let S ← setup fl L σ m
  .ok ⟨bs, dom, offset, m, S⟩

/-- `operator()` (spline_builder.hpp lines 905-1101), like `DDC.Builder.apply`. -/
def apply (L : Lapack Rat) (σ : Sched) (B : Builder) (junk : Nat → Nat → Rat) (spline vals : Mat Rat)
    (dmin dmax : Option (U64 × Mat Rat)) : Res (Mat Rat) := do
  let p := B.bs.degree
  let n ← Dom.size B.dom
  Res.guardAbort (decide (vals.rows = n.toNat))
  Res.guardAbort (decide (vals.cols = spline.cols))
  if vals.cols = 0 then .ok spline
  else do
    let nb ← B.bs.nbasis
    Res.guardAbort (decide (n = nb))
    DDC.Builder.checkDerivs .greville (p % 2) dmin
    DDC.Builder.checkDerivs .greville (p % 2) dmax
    let spline ← DDC.Builder.fillRows 0 B.offset spline
    let spline ← DDC.Builder.putRows B.offset vals spline
    let rows ← B.matrix.requiredRows
    let tr ← DDC.Builder.toTr σ nb B.offset spline ⟨rows.toNat, vals.cols, junk⟩
    let tr ← solve fl L σ B.solver false rows.toNat 0 tr
    let spline ← DDC.Builder.fromTr σ nb B.offset tr spline
    if B.bs.periodic then DDC.Builder.duplicate σ p nb B.offset spline else .ok spline

end Builder

end DDC.Rounded
