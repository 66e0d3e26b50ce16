import Verif.Model.RoundedBasis
import Verif.Model.Quadrature

/-!
# Integrals of B-splines and of splines, with rounding

`ddc::integrals` and `SplineEvaluator::integrate` with every floating-point operation followed by a rounding `fl` (see
`Model/Rounded.lean`).
-/

namespace DDC.Rounded

variable (fl : Rat → Rat)

/-- `sum(array, start, end)` (math_tools.hpp lines 39-54); `sum(array)` (lines 24-37) is the case `start = 0`,
`end = array.extent(0)`. -/
def sumArr (a : Arr Rat) (start stop : Nat) : Res Rat :=
  forLoop (fun i acc => do let v ← a.rd i; pure (fl (acc + v))) start (stop - start) 0

/-- `eval_basis(values, x, degree)` of uniform B-splines (bsplines_uniform.hpp lines 392-427), with the degree of the
caller. -/
def Knots.evalBasisDeg (k : Knots) (values : Arr Rat) (x : Rat) (degree : Nat) : Res (Arr Rat × Int) := do
  Res.guardAbort (decide (values.size = degree + 1))
  let c ← getIcellAndOffset fl k x
  let values ← values.wr 0 1
  let values ← forLoop (Knots.basisOuter fl c.2) 1 (values.size - 1) values
  pure (values, c.1)

/-- Body of the `parallel_for` (integrals.hpp lines 79-99). -/
def Knots.edgeIntegral (k : Knots) (first last : Elem Unit) (vals : Chunk1 Rat) (i : Nat) : Res (Chunk1 Rat) := do
  let e ← k.evalBasisDeg fl (Arr.uninit (k.p + 2)) (k.rmin fl) (k.p + 1)
  let dEval ← sumArr fl e.1 0 e.1.size
  let cEval ← sumArr fl e.1 0 (k.p - i)
  let edge := fl (k.step * fl (dEval - cEval))
  let x ← Elem.addInt first (BitVec.ofNat 64 i)
  let vals ← vals.put x edge
  let y ← Elem.subInt last (BitVec.ofNat 64 i)
  vals.put y edge

/-- `uniform_bsplines_integrals` (integrals.hpp lines 30-102).  `sched` is the order in which the iterations of the
`parallel_for` are executed, `per` is `is_periodic()`.  The first B-spline has the identifier `0`, as in
`UniformBSplines::Impl(rmin, rmax, ncells)` (bsplines_uniform.hpp lines 134-147). -/
def Knots.integrals (k : Knots) (per : Bool) (sched : List Nat) (vals : Chunk1 Rat) : Res (Chunk1 Rat) := do
  let n ← Dom.size vals.dom
  let sz := BitVec.ofNat 64 k.n + BitVec.ofNat 64 k.p
  let nb := if per then BitVec.ofNat 64 k.n else sz
  Res.guardAbort (integralsSize per n nb sz)
  let full ← Dom.ofSize (el1 0) (ve1 sz)
  if per then do
    let d ← Dom.takeFirst full (ve1 nb)
    let vals ← vals.fillSub d k.step
    if n = sz then do
      let r ← Dom.takeLast full (ve1 (BitVec.ofNat 64 k.p))
      vals.fillSub r 0
    else pure vals
  else do
    let p := ve1 (BitVec.ofNat 64 k.p)
    let d ← Dom.remove full p p
    let vals ← vals.fillSub d k.step
    let last ← Dom.back full
    sched.foldlM (k.edgeIntegral fl (Dom.front full) last) vals

/-- Body of the `parallel_for_each` (integrals.hpp lines 136-142), with `inv_deg` of line 134.  The sum `degree + 1` is
exact. -/
def integralOne (u : NUBS Rat) (vals : Chunk1 Rat) (ix : Elem Unit) : Res (Chunk1 Rat) := do
  let l ← u.lastSupportKnot ix
  let x ← u.knots.coordinate l
  let f ← u.firstSupportKnot ix
  let y ← u.knots.coordinate f
  vals.put ix (fl (fl (x - y) * fl (1 / ((u.degree : Rat) + 1))))

/-- `non_uniform_bsplines_integrals` (integrals.hpp lines 110-154).  `sched` is the order in which the elements of the
domain are treated. -/
def integrals (u : NUBS Rat) (sched : List U64) (vals : Chunk1 Rat) : Res (Chunk1 Rat) := do
  let n ← Dom.size vals.dom
  let nb ← u.nbasis
  let sz ← u.size
  Res.guardAbort (integralsSize u.periodic n nb sz)
  let full ← u.fullDomain
  let d ← Dom.takeFirst full (ve1 nb)
  let vals ← sched.foldlM (fun vals k => do
    let ix ← Elem.addInt (Dom.front d) k
    integralOne fl u vals ix) vals
  if u.periodic && decide (n = sz) then do
    let r ← Dom.takeLast full (ve1 (BitVec.ofNat 64 u.degree))
    vals.fillSub r 0
  else pure vals

/-- The loop of `integrate` in one dimension (spline_evaluator.hpp lines 519-524): `vals` are the integrals of the
B-splines, `coef` the coefficients of one element of the batch domain. -/
def integrateLoop (vals : Chunk1 Rat) (coef : Coefs Rat) : Res Rat :=
  hostForEach1 vals.dom (fun i y => do
    let j ← uid1 i
    let c ← coef [j]
    let w ← vals.get i
    .ok (fl (y + fl (c * w)))) 0

/-- `integrate` for uniform B-splines (spline_evaluator.hpp lines 494-526), for one element of the batch domain; `dom` is
the domain of the coefficients. -/
def Knots.integrate (k : Knots) (per : Bool) (sched : List Nat) (dom : Dom Unit) (coef : Coefs Rat) : Res Rat := do
  let size ← Dom.size dom
  let vals ← k.integrals fl per sched ⟨dom, Arr.uninit size.toNat⟩
  integrateLoop fl vals coef

/-- `integrate` for non-uniform B-splines (spline_evaluator.hpp lines 494-526), for one element of the batch domain. -/
def integrate (u : NUBS Rat) (sched : List U64) (dom : Dom Unit) (coef : Coefs Rat) : Res Rat := do
  let size ← Dom.size dom
  let vals ← integrals fl u sched ⟨dom, Arr.uninit size.toNat⟩
  integrateLoop fl vals coef

end DDC.Rounded
