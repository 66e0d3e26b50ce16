import Verif.Model.Rounded
import Verif.Model.Evaluator

/-!
# Values of B-splines and splines, with rounding

`eval_basis` and the evaluation of a spline with every floating-point operation followed by a rounding `fl` (see
`Model/Rounded.lean`).  The constructor of non-uniform B-splines is in `Model/RoundedKnots.lean`, the evaluation in
several dimensions in `Model/RoundedTensor.lean`.  First derivatives are in `Model/RoundedDeriv.lean`.
-/

namespace DDC.Rounded

variable (fl : Rat → Rat)

/-- Inner loop of the triangular scheme (bsplines_uniform.hpp lines 414-421): state `(values, xx, saved)`.  The
conversion of `j` to `double` is exact. -/
def Knots.basisInner (j : Nat) (r : Nat) (s : Arr Rat × Rat × Rat) : Res (Arr Rat × Rat × Rat) := do
  let xx := fl (s.2.1 + 1)
  let v ← s.1.rd r
  let temp := fl (v / (j : Rat))
  let a ← s.1.wr r (fl (s.2.2 + fl (xx * temp)))
  pure (a, xx, fl (fl ((j : Rat) - xx) * temp))

/-- Outer loop of the triangular scheme (bsplines_uniform.hpp lines 411-423).  A change of sign is exact. -/
def Knots.basisOuter (offset : Rat) (j : Nat) (values : Arr Rat) : Res (Arr Rat) := do
  let s ← forLoop (Knots.basisInner fl j) 0 j (values, -offset, 0)
  s.1.wr j s.2.2

/-- `eval_basis(values, x)` of uniform B-splines (bsplines_uniform.hpp lines 203-208, 392-427): the values and
the number of the first B-spline. -/
def Knots.evalBasis (k : Knots) (values : Arr Rat) (x : Rat) : Res (Arr Rat × Int) := do
  Res.guardAbort (decide (values.size = k.p + 1))
  let c ← getIcellAndOffset fl k x
  let values ← values.wr 0 1
  let values ← forLoop (Knots.basisOuter fl c.2) 1 (values.size - 1) values
  pure (values, c.1)

/-- The assertions on the cell (bsplines_non_uniform.hpp lines 476-479). -/
def checkCell (u : NUBS Rat) (x : Rat) (icell : U64) : Res Unit := do
  let a ← u.rmin
  let b ← u.rmax
  let f ← uid1 (Dom.front u.breakDom)
  let l ← Dom.back u.breakDom
  let l ← uid1 l
  Res.guardAbort (decide (f.toNat ≤ icell.toNat))
  Res.guardAbort (decide (icell.toNat ≤ l.toNat))
  let y ← u.knot icell
  Res.guardAbort (decide (fl (y - x) ≤ fl (fl (b - a) * fl (1 / 10 ^ 14))))
  let z ← u.knot (icell + 1)
  Res.guardAbort (decide (fl (x - z) ≤ fl (fl (b - a) * fl (1 / 10 ^ 14))))

/-- Inner loop (bsplines_non_uniform.hpp lines 488-492): state `(values, saved)`. -/
def basisInner (left right : Arr Rat) (j : Nat) (r : Nat) (s : Arr Rat × Rat) : Res (Arr Rat × Rat) := do
  let v ← s.1.rd r
  let rr ← right.rd r
  let ll ← left.rd (j - r)
  let temp := fl (v / fl (rr + ll))
  let a ← s.1.wr r (fl (s.2 + fl (rr * temp)))
  pure (a, fl (ll * temp))

/-- Outer loop (bsplines_non_uniform.hpp lines 484-494). -/
def basisOuter (u : NUBS Rat) (icell : U64) (x : Rat) (j : Nat) (s : NUBS.BasisState Rat) :
    Res (NUBS.BasisState Rat) := do
  let tl ← u.knot (icell - BitVec.ofNat 64 j)
  let left ← s.left.wr j (fl (x - tl))
  let tr ← u.knot (icell + BitVec.ofNat 64 j + 1)
  let right ← s.right.wr j (fl (tr - x))
  let t ← forLoop (basisInner fl left right j) 0 (j + 1) (s.values, 0)
  let values ← t.1.wr (j + 1) t.2
  pure ⟨values, left, right⟩

/-- `eval_basis(values, x)` of non-uniform B-splines (bsplines_non_uniform.hpp lines 459-498). -/
def evalBasis (u : NUBS Rat) (values : Arr Rat) (x : Rat) : Res (Arr Rat × Elem Unit) := do
  Res.guardAbort (decide (values.size = u.degree + 1))
  let a ← u.rmin
  let b ← u.rmax
  checkInside fl x a b
  let ic ← findCellStart fl u x
  let icell ← uid1 ic
  checkCell fl u x icell
  let values ← values.wr 0 1
  let s ← forLoop (basisOuter fl u icell x) 0 u.degree
    ⟨values, Arr.uninit u.degree, Arr.uninit u.degree⟩
  let e ← u.firstBsplineInCell ic
  pure (s.values, e)

/-- The loop of `eval_no_bc` (spline_evaluator.hpp lines 599-603). -/
def sum1 (p : Nat) (v : Arr Rat) (j : U64) (coef : Coefs Rat) : Res Rat :=
  forLoop (fun i y => do
    let c ← coef [j + BitVec.ofNat 64 i]
    let w ← v.rd i
    .ok (fl (y + fl (c * w)))) 0 (p + 1) 0

/-- `eval_no_bc` without derivatives (spline_evaluator.hpp lines 557-605), for uniform B-splines. -/
def Knots.evalNoBc (k : Knots) (x : Rat) (coef : Coefs Rat) : Res Rat := do
  let (v, j) ← k.evalBasis fl (Arr.uninit (k.p + 1)) x
  sum1 fl k.p v (BitVec.ofInt 64 j) coef

/-- The same for non-uniform B-splines. -/
def evalNoBc (u : NUBS Rat) (x : Rat) (coef : Coefs Rat) : Res Rat := do
  let (v, e) ← evalBasis fl u (Arr.uninit (u.degree + 1)) x
  let j ← uid1 e
  sum1 fl u.degree v j coef

/-- `eval` (spline_evaluator.hpp lines 528-555) for uniform B-splines.  `lower` and `upper` are the
extrapolation rules, that take no part in a periodic dimension. -/
def Knots.eval (k : Knots) (per : Bool) (lower upper : Rat → Coefs Rat → Res Rat) (x : Rat) (coef : Coefs Rat) :
    Res Rat :=
  if per then k.evalNoBc fl (wrap fl k x) coef
  else if x < k.rmin fl then lower x coef
  else if k.rmax fl < x then upper x coef
  else k.evalNoBc fl x coef

/-- `eval` (spline_evaluator.hpp lines 528-555) for non-uniform B-splines. -/
def eval (u : NUBS Rat) (lower upper : Rat → Coefs Rat → Res Rat) (x : Rat) (coef : Coefs Rat) : Res Rat := do
  let a ← u.rmin
  let b ← u.rmax
  if u.periodic then evalNoBc fl u (wrapOf fl a b x) coef
  else if x < a then lower x coef
  else if b < x then upper x coef
  else evalNoBc fl u x coef

end DDC.Rounded
