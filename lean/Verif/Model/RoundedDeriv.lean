import Verif.Model.RoundedBasis

/-!
# First derivatives of B-splines, with rounding

`eval_deriv` with every floating-point operation followed by a rounding `fl` (see `Model/Rounded.lean`).
-/

namespace DDC.Rounded

variable (fl : Rat → Rat)

/-- Second loop of `eval_deriv` of uniform B-splines (bsplines_uniform.hpp lines 463-467): state `(derivs, bj, bjm1)`. -/
def Knots.derivDiff (j : Nat) (s : Arr Rat × Rat × Rat) : Res (Arr Rat × Rat × Rat) := do
  let bj ← s.1.rd j
  let a ← s.1.wr j (fl (s.2.2 - bj))
  pure (a, bj, bj)

/-- `eval_deriv(derivs, x)` of uniform B-splines (bsplines_uniform.hpp lines 429-472).  The division is
that of line 446; the number of the first B-spline is returned as in `Knots.evalBasis`. -/
def Knots.evalDeriv (k : Knots) (derivs : Arr Rat) (x : Rat) : Res (Arr Rat × Int) := do
  Res.guardAbort (decide (derivs.size = k.p + 1))
  let c ← getIcellAndOffset fl k x
  let d ← derivs.wr 0 (fl (1 / k.step))
  let d ← forLoop (Knots.basisOuter fl c.2) 1 (k.p - 1) d
  let bjm1 ← d.rd 0
  let d ← d.wr 0 (-bjm1)
  let s ← forLoop (Knots.derivDiff fl) 1 (k.p - 1) (d, bjm1, bjm1)
  let d ← s.1.wr k.p s.2.1
  pure (d, c.1)

/-- `degree() * derivs[j] / (coordinate(icell + j + 1) - coordinate(icell + j + 1 - degree()))`
(bsplines_non_uniform.hpp lines 545-546, 550-551). -/
def derivTerm (u : NUBS Rat) (icell : U64) (j : Nat) (derivs : Arr Rat) : Res Rat := do
  let v ← derivs.rd j
  let y ← u.knot (icell + BitVec.ofNat 64 j + 1)
  let z ← u.knot (icell + BitVec.ofNat 64 j + 1 - BitVec.ofNat 64 u.degree)
  pure (fl (fl ((u.degree : Rat) * v) / fl (y - z)))

/-- Second loop of `eval_deriv` of non-uniform B-splines (bsplines_non_uniform.hpp lines 548-553): state
`(derivs, saved)`. -/
def derivDiff (u : NUBS Rat) (icell : U64) (j : Nat) (s : Arr Rat × Rat) : Res (Arr Rat × Rat) := do
  let v ← derivTerm fl u icell j s.1
  let a ← s.1.wr j (fl (s.2 - v))
  pure (a, v)

/-- `eval_deriv(derivs, x)` of non-uniform B-splines (bsplines_non_uniform.hpp lines 500-557). -/
def evalDeriv (u : NUBS Rat) (derivs : Arr Rat) (x : Rat) : Res (Arr Rat × Elem Unit) := do
  let a ← u.rmin
  let b ← u.rmax
  checkInside fl x a b
  Res.guardAbort (decide (derivs.size = u.degree + 1))
  let ic ← findCellStart fl u x
  let icell ← uid1 ic
  checkCell fl u x icell
  let d ← derivs.wr 0 1
  let s ← forLoop (basisOuter fl u icell x) 0 (u.degree - 1)
    ⟨d, Arr.uninit u.degree, Arr.uninit u.degree⟩
  let saved ← derivTerm fl u icell 0 s.values
  let d ← s.values.wr 0 (-saved)
  let t ← forLoop (derivDiff fl u icell) 1 (u.degree - 1) (d, saved)
  let d ← t.1.wr u.degree t.2
  let e ← u.firstBsplineInCell ic
  pure (d, e)

end DDC.Rounded
