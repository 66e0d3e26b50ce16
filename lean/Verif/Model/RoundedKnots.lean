import Verif.Model.RoundedBasis

/-!
# Knots of periodic non-uniform B-splines, with rounding

The constructor of non-uniform B-splines with every floating-point operation followed by a rounding `fl` (see
`Model/Rounded.lean`).  The break points are the coordinates given by the caller and are not rounded.
-/

namespace DDC.Rounded

variable (fl : Rat → Rat)

/-- Extra knots of the periodic case (bsplines_non_uniform.hpp lines 445-448). -/
def fillPeriodic (p ncells : Nat) (period : Rat) (i : Nat) (knots : Arr Rat) : Res (Arr Rat) := do
  let x ← knots.rd (p + ncells - i)
  let knots ← knots.wr (p - i) (fl (x - period))
  let y ← knots.rd (p + i)
  knots.wr (p + ncells + i) (fl (y + period))

/-- Constructor (bsplines_non_uniform.hpp lines 414-457) with the `static_assert` of line 47, like `NUBS.mk'`. -/
def mkNubs (p : Nat) (per : Bool) (breaks : List Rat) : Res (NUBS Rat) := do
  Res.guardIll (decide (0 < p))
  let nb := breaks.length
  let knotDom ← Dom.ofSize (el1 0) (ve1 (BitVec.ofNat 64 (nb + 2 * p)))
  let breakDom ← Dom.ofSize (el1 (BitVec.ofNat 64 p)) (ve1 (BitVec.ofNat 64 nb))
  let size ← Dom.size knotDom
  let npoints := size.toNat - 2 * p
  let knots ← forLoop (NUBS.fillBreaks p breaks) 0 nb (Arr.const (nb + 2 * p) 0)
  let rmin ← knots.rd p
  let rmax ← knots.rd (nb + p - 1)
  Res.guardAbort (decide (rmin < rmax))
  let knots ←
    if per then forLoop (fillPeriodic fl p (npoints - 1) (fl (rmax - rmin))) 1 p knots
    else forLoop (NUBS.fillOpen p npoints rmin rmax) 1 p knots
  let pts ← knots.toList
  let attr ← NonUniform.mk' () pts
  pure ⟨p, per, attr, knotDom, breakDom, Elem.createReference ()⟩

end DDC.Rounded
