import Verif.Model.RoundedTensor

/-!
# Evaluators in several dimensions, with rounding

`eval` of the evaluators in one, two, three and any number of dimensions — the reduction of the coordinates in periodic
dimensions, the choice of an extrapolation rule, the rules — with every floating-point operation followed by a rounding `fl`
(see `Model/RoundedTensor.lean`; without rounding: `Model/Evaluator.lean`).
-/

namespace DDC.Rounded

open Eval (Rule)

variable (fl : Rat → Rat)

/-- `rmin()` (bsplines_uniform.hpp lines 278-281, bsplines_non_uniform.hpp lines 288-291). -/
def Basis.rmin : Basis → Res Rat
  | .uniform k => .ok (k.rmin fl)
  | .nonUniform u => u.rmin

/-- `rmax()` (bsplines_uniform.hpp lines 287-290, bsplines_non_uniform.hpp lines 297-300). -/
def Basis.rmax : Basis → Res Rat
  | .uniform k => .ok (k.rmax fl)
  | .nonUniform u => u.rmax

/-- `eval_no_bc` without derivatives in one dimension (spline_evaluator.hpp lines 557-605). -/
def noBc1 (b : Basis) (x : Rat) (coef : Coefs Rat) : Res Rat := do
  let (v, j) ← b.jminVals fl none x
  sum1 fl b.degree v j coef

/-- `ConstantExtrapolationRule<DimI>` (constant_extrapolation_rule.hpp lines 41, 51-72). -/
def constantRule1 (b : Basis) (pos : Rat) : Rule Rat := fun _ coef => do
  let (v, j) ← b.jminVals fl none pos
  sum1 fl b.degree v j coef

/-- `ConstantExtrapolationRule<DimI, DimNI>` (constant_extrapolation_rule.hpp lines 103-111, 146-194), for the coefficients on
the B-splines `b1`, `b2`; `first` tells whether `DimI` is the dimension of `b1`.  `per` is `DimNI::PERIODIC`.  `Kokkos::clamp`
does not compute. -/
def constantRule2 (first : Bool) (b1 b2 : Basis) (per : Bool) (pos lo hi : Rat) : Rule Rat := fun x coef =>
  match x with
  | [x1, x2] => do
    let other := if first then x2 else x1
    let other ← if per then .ok other else Eval.clamp other lo hi
    let (v1, j1) ← b1.jminVals fl none (if first then pos else other)
    let (v2, j2) ← b2.jminVals fl none (if first then other else pos)
    forLoop (fun i y => forLoop (fun j y => do
      let c ← coef [j1 + BitVec.ofNat 64 i, j2 + BitVec.ofNat 64 j]
      let w1 ← v1.rd i
      let w2 ← v2.rd j
      .ok (fl (y + fl (fl (c * w1) * w2)))) 0 (b2.degree + 1) y) 0 (b1.degree + 1) 0
  | _ => .ill

/-- One dimension of an evaluator: its B-splines, whether they are periodic and its two rules. -/
structure Side where
  b : Basis
  per : Bool
  lower : Rule Rat
  upper : Rule Rat

/-- The reduction of a coordinate in a periodic dimension (spline_evaluator.hpp lines 537-543,
spline_evaluator_2d.hpp lines 687-708, spline_evaluator_3d.hpp lines 823-855, spline_evaluator_nd.hpp
`update_coord_eval` lines 639-656). -/
def Side.wrap (s : Side) (x : Rat) : Res Rat :=
  if s.per then do
    let a ← s.b.rmin fl
    let b ← s.b.rmax fl
    .ok (wrapOf fl a b x)
  else .ok x

/-- The rule that applies to the coordinate `x` in a dimension, if any (spline_evaluator.hpp lines 545-550,
spline_evaluator_2d.hpp lines 709-724, spline_evaluator_3d.hpp lines 856-879, spline_evaluator_nd.hpp
`check_needs_extrapolation` lines 658-683). -/
def Side.needs (s : Side) (x : Rat) : Res (Option (Rule Rat)) :=
  if s.per then .ok none
  else do
    let a ← s.b.rmin fl
    if x < a then .ok (some s.lower)
    else do
      let b ← s.b.rmax fl
      if b < x then .ok (some s.upper) else .ok none

/-- `eval` in one dimension (spline_evaluator.hpp lines 530-554). -/
def eval1 (s : Side) (x : Rat) (coef : Coefs Rat) : Res Rat := do
  let x ← s.wrap fl x
  match ← s.needs fl x with
  | some r => r [x] coef
  | none => noBc1 fl s.b x coef

/-- `eval` in two dimensions (spline_evaluator_2d.hpp lines 679-730). -/
def eval2 (s1 s2 : Side) (x1 x2 : Rat) (coef : Coefs Rat) : Res Rat := do
  let x1 ← s1.wrap fl x1
  let x2 ← s2.wrap fl x2
  match ← s1.needs fl x1 with
  | some r => r [x1, x2] coef
  | none =>
    match ← s2.needs fl x2 with
    | some r => r [x1, x2] coef
    | none => noBc2 fl s1.b s2.b none none x1 x2 coef

/-- `eval` in three dimensions (spline_evaluator_3d.hpp lines 815-889). -/
def eval3 (s1 s2 s3 : Side) (x1 x2 x3 : Rat) (coef : Coefs Rat) : Res Rat := do
  let x1 ← s1.wrap fl x1
  let x2 ← s2.wrap fl x2
  let x3 ← s3.wrap fl x3
  match ← s1.needs fl x1 with
  | some r => r [x1, x2, x3] coef
  | none =>
    match ← s2.needs fl x2 with
    | some r => r [x1, x2, x3] coef
    | none =>
      match ← s3.needs fl x3 with
      | some r => r [x1, x2, x3] coef
      | none => noBc3 fl s1.b s2.b s3.b none none none x1 x2 x3 coef

/-- `(... || check_needs_extrapolation(...))` (spline_evaluator_nd.hpp lines 708-710): the first dimension that
needs a rule. -/
def firstRule : List (Side × Rat) → Res (Option (Rule Rat))
  | [] => .ok none
  | (s, x) :: l => do
    match ← s.needs fl x with
    | some r => .ok (some r)
    | none => firstRule l

/-- `eval` in any number of dimensions (spline_evaluator_nd.hpp lines 697-721). -/
def evalN (sides : List Side) (x : List Rat) (coef : Coefs Rat) : Res Rat := do
  let x ← (List.zip sides x).mapM fun d => d.1.wrap fl d.2
  match ← firstRule fl (List.zip sides x) with
  | some r => r x coef
  | none => noBcN fl ((List.zip sides x).map fun d => (d.1.b, none, d.2)) coef

end DDC.Rounded
