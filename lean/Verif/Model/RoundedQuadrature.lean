import Verif.Model.RoundedIntegrals
import Verif.Model.RoundedTensor

/-!
# Integrals of splines in several dimensions, with rounding

`integrate` of the evaluators, with every floating-point operation followed by a rounding `fl` (see `Model/Rounded.lean` and
`Model/RoundedIntegrals.lean`).
-/

namespace DDC.Rounded

variable (fl : Rat → Rat)

/-- One dimension of `integrate`: the B-splines, `is_periodic()`, the order of the iterations in `ddc::integrals` and the
domain of the coefficients. -/
structure IntDim where
  b : Basis
  per : Bool
  sched : List Nat
  dom : Dom Unit

/-- The values of `ddc::integrals` on the domain of the coefficients (spline_evaluator.hpp lines 508-513,
spline_evaluator_2d.hpp lines 633-644, spline_evaluator_3d.hpp lines 759-776, spline_evaluator_nd.hpp lines 613-618,
integrals.hpp lines 166-178). -/
def IntDim.values (d : IntDim) : Res (Chunk1 Rat) := do
  let size ← Dom.size d.dom
  match d.b with
  | .uniform k => k.integrals fl d.per d.sched ⟨d.dom, Arr.uninit size.toNat⟩
  | .nonUniform u => integrals fl u (d.sched.map (BitVec.ofNat 64)) ⟨d.dom, Arr.uninit size.toNat⟩

/-- The order of the products of a coefficient and of the values of its B-splines. -/
inductive Fold
  | left
  | right

/-- The fold `(values(i) * ...)` of spline_evaluator_nd.hpp lines 630-632, from right to left.  The fold of no value is not
valid C++; the model takes 1. -/
def foldRight : List Rat → Rat
  | [] => 1
  | [w] => w
  | w :: ws => fl (w * foldRight ws)

/-- The product added to the integral: from left to right in one, two and three dimensions (spline_evaluator.hpp line 523,
spline_evaluator_2d.hpp line 656, spline_evaluator_3d.hpp lines 790-791), the values first and from right to left in any
number of dimensions (spline_evaluator_nd.hpp lines 629-632). -/
def Fold.product (f : Fold) (c : Rat) (ws : List Rat) : Rat :=
  match f with
  | .left => ws.foldl (fun z w => fl (z * w)) c
  | .right => fl (c * foldRight fl ws)

/-- The loops of `integrate` on the B-splines (spline_evaluator.hpp lines 520-524, spline_evaluator_2d.hpp lines 651-658,
spline_evaluator_3d.hpp lines 783-794, spline_evaluator_nd.hpp lines 625-633): `is` are the arrays of values and the
elements already chosen, `y` is `integrals(j)`. -/
def intLoop (f : Fold) (coef : Coefs Rat) : List (Chunk1 Rat) → List (Chunk1 Rat × Elem Unit) → Rat → Res Rat
  | [], is, y => do
    let idx ← is.mapM fun a => uid1 a.2
    let c ← coef idx
    let ws ← is.mapM fun a => a.1.get a.2
    .ok (fl (y + f.product fl c ws))
  | v :: vs, is, y => hostForEach1 v.dom (fun i y => intLoop f coef vs (is ++ [(v, i)]) y) y

/-- `integrate` (spline_evaluator.hpp lines 494-526, spline_evaluator_2d.hpp lines 616-660, spline_evaluator_3d.hpp
lines 742-797, spline_evaluator_nd.hpp lines 597-635), in the number of dimensions of the list.  The columns of `out`
are the batch domain, `σ` is the order in which they are treated, `coef j` are the coefficients of the column `j`.  The
result has one row. -/
def integrateN (f : Fold) (σ : Sched) (dims : List IntDim) (coef : Nat → Coefs Rat) (out : Mat Rat) : Res (Mat Rat) := do
  let vals ← dims.mapM (IntDim.values fl)
  Builder.colLoop σ (fun j out => do
    let out ← out.wr 0 j 0
    let y ← out.rd 0 j
    let y ← intLoop fl f (coef j) vals [] y
    out.wr 0 j y) out

end DDC.Rounded
