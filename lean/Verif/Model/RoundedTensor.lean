import Verif.Model.RoundedNDerivs

/-!
# Splines in several dimensions, with rounding

`eval_no_bc` of the evaluators in two, three and any number of dimensions, with every floating-point operation
followed by a rounding `fl` (see `Model/Rounded.lean`, `Model/RoundedBasis.lean` and `Model/RoundedNDerivs.lean`).
-/

namespace DDC.Rounded

variable (fl : Rat → Rat)

/-- The B-splines of one dimension. -/
inductive Basis
  | uniform (k : Knots)
  | nonUniform (u : NUBS Rat)

/-- `degree()` (bsplines_uniform.hpp lines 64-67, bsplines_non_uniform.hpp lines 60-63). -/
def Basis.degree : Basis → Nat
  | .uniform k => k.p
  | .nonUniform u => u.degree

/-- The values of the B-splines, or of their derivatives, that are not zero at `x` and the index of the first one
(spline_evaluator_2d.hpp lines 768-810, spline_evaluator_3d.hpp lines 936-1000, spline_evaluator_nd.hpp `get_jmin` lines
724-756).  `order` is `none` when the dimension is not a tag of `deriv_order`. -/
def Basis.jminVals (b : Basis) (order : Option U64) (x : Rat) : Res (Arr Rat × U64) :=
  match b, order with
  | .uniform k, none => do
    let (v, j) ← k.evalBasis fl (Arr.uninit (k.p + 1)) x
    pure (v, BitVec.ofInt 64 j)
  | .nonUniform u, none => do
    let (v, e) ← evalBasis fl u (Arr.uninit (u.degree + 1)) x
    let j ← uid1 e
    pure (v, j)
  | .uniform k, some o => do
    Res.guardAbort (decide (0 < o.toNat ∧ o.toNat ≤ k.p))
    let (d, j) ← k.evalBasisAndNDerivs fl (Arr2.uninit (k.p + 1) (o.toNat + 1)) x o.toNat
    let v ← column k.p o.toNat d
    pure (v, BitVec.ofInt 64 j)
  | .nonUniform u, some o => do
    Res.guardAbort (decide (0 < o.toNat ∧ o.toNat ≤ u.degree))
    let (d, e) ← evalBasisAndNDerivs fl u (Arr2.uninit (u.degree + 1) (o.toNat + 1)) x o.toNat
    let v ← column u.degree o.toNat d
    let j ← uid1 e
    pure (v, j)

/-- `eval_no_bc` in two dimensions (spline_evaluator_2d.hpp lines 741-825): the products are made from left to
right. -/
def noBc2 (b1 b2 : Basis) (o1 o2 : Option U64) (x1 x2 : Rat) (coef : Coefs Rat) : Res Rat := do
  let (v1, j1) ← b1.jminVals fl o1 x1
  let (v2, j2) ← b2.jminVals fl o2 x2
  forLoop (fun i y => forLoop (fun j y => do
    let c ← coef [j1 + BitVec.ofNat 64 i, j2 + BitVec.ofNat 64 j]
    let w1 ← v1.rd i
    let w2 ← v2.rd j
    .ok (fl (y + fl (fl (c * w1) * w2)))) 0 (b2.degree + 1) y) 0 (b1.degree + 1) 0

/-- `eval_no_bc` in three dimensions (spline_evaluator_3d.hpp lines 901-1019). -/
def noBc3 (b1 b2 b3 : Basis) (o1 o2 o3 : Option U64) (x1 x2 x3 : Rat) (coef : Coefs Rat) : Res Rat := do
  let (v1, j1) ← b1.jminVals fl o1 x1
  let (v2, j2) ← b2.jminVals fl o2 x2
  let (v3, j3) ← b3.jminVals fl o3 x3
  forLoop (fun i y => forLoop (fun j y => forLoop (fun k y => do
    let c ← coef [j1 + BitVec.ofNat 64 i, j2 + BitVec.ofNat 64 j, j3 + BitVec.ofNat 64 k]
    let w1 ← v1.rd i
    let w2 ← v2.rd j
    let w3 ← v3.rd k
    .ok (fl (y + fl (fl (fl (c * w1) * w2) * w3)))) 0 (b3.degree + 1) y) 0 (b2.degree + 1) y) 0 (b1.degree + 1) 0

/-- The fold `(vals[idx] * ...)` of spline_evaluator_nd.hpp line 819: the products are made from right to left. -/
def foldVals : List (Arr Rat) → List Nat → Res Rat
  | [v], [i] => v.rd i
  | v :: vs, i :: is => do
    let w ← v.rd i
    let r ← foldVals vs is
    .ok (fl (w * r))
  | _, _ => .ill

/-- `eval_no_bc` in any number of dimensions (spline_evaluator_nd.hpp lines 782-824). -/
def noBcN (dims : List (Basis × Option U64 × Rat)) (coef : Coefs Rat) : Res Rat := do
  let vj ← dims.mapM fun d => d.1.jminVals fl d.2.1 d.2.2
  Eval.forEachN (fun idx y => do
    let c ← coef (List.zipWith (fun j i => j + BitVec.ofNat 64 i) (vj.map (·.2)) idx)
    let w ← foldVals fl (vj.map (·.1)) idx
    .ok (fl (y + fl (c * w)))) (dims.map fun d => d.1.degree + 1) [] 0

end DDC.Rounded
