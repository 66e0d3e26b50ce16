import Verif.Model.Builder

/-!
# The spline evaluators

Model of `/repo/src/ddc/kernels/splines/spline_evaluator.hpp`, `spline_evaluator_2d.hpp`,
`spline_evaluator_3d.hpp`, `spline_evaluator_nd.hpp` and of the extrapolation rules.

Simplifications common to the file:
* `double` is a linearly ordered field `K` with an integer part;
* the coordinate is the list of its components along the dimensions of interest, in the order of the
  template parameters `BSplines` (the access by tags is the subject of `Model/Tuple.lean`), and so are the
  elements given to the chunk of the coefficients;
* the chunk of the coefficients is its `operator()`: a function of the indices, that is `ub` out of its domain
  (the access itself is the subject of `Model/Chunk.lean`).
-/

namespace DDC

section

variable {K : Type} [Field K] [LinearOrder K] [FloorRing K]

/-- `length()` (bsplines_uniform.hpp lines 296-299, bsplines_non_uniform.hpp lines 306-309). -/
def BSpl.length (bs : BSpl K) : Res K := do
  let b ← bs.rmax
  let a ← bs.rmin
  .ok (b - a)

/-- The chunk of the coefficients. -/
abbrev Coefs (K : Type) := List U64 → Res K

namespace Eval

/-- The values of the B-splines, or of their derivatives, that are not zero at `x`, and the index of the first one
(spline_evaluator.hpp lines 578-597, spline_evaluator_2d.hpp lines 769-811, spline_evaluator_3d.hpp lines
936-1000, spline_evaluator_nd.hpp `get_jmin` lines 724-756).  `order` is `none` when the dimension is not a
tag of `deriv_order`. -/
def jminVals (bs : BSpl K) (order : Option U64) (x : K) : Res (Arr K × U64) :=
  match order with
  | none => do
    let (v, e) ← bs.evalBasis (Arr.uninit (bs.degree + 1)) x
    let j ← uid1 e
    .ok (v, j)
  | some o => do
    Res.guardAbort (decide (0 < o.toNat ∧ o.toNat ≤ bs.degree))
    let (d, e) ← bs.evalNDerivs (Arr2.uninit (bs.degree + 1) (o.toNat + 1)) x o.toNat
    let v ← forLoop (fun i v => do
      let y ← d.rd i o.toNat
      v.wr i y) 0 (bs.degree + 1) (Arr.uninit (bs.degree + 1))
    let j ← uid1 e
    .ok (v, j)

/-- The loop of `eval_no_bc` in one dimension (spline_evaluator.hpp lines 599-603); also that of the constant
extrapolation rule (constant_extrapolation_rule.hpp lines 67-71). -/
def sum1 (p : Nat) (v : Arr K) (j : U64) (coef : Coefs K) : Res K :=
  forLoop (fun i y => do
    let c ← coef [j + BitVec.ofNat 64 i]
    let w ← v.rd i
    .ok (y + c * w)) 0 (p + 1) 0

/-- The loops of `eval_no_bc` in two dimensions (spline_evaluator_2d.hpp lines 814-824); also those of the
constant extrapolation rule (constant_extrapolation_rule.hpp lines 186-193). -/
def sum2 (p1 p2 : Nat) (v1 v2 : Arr K) (j1 j2 : U64) (coef : Coefs K) : Res K :=
  forLoop (fun i y => forLoop (fun j y => do
    let c ← coef [j1 + BitVec.ofNat 64 i, j2 + BitVec.ofNat 64 j]
    let w1 ← v1.rd i
    let w2 ← v2.rd j
    .ok (y + c * w1 * w2)) 0 (p2 + 1) y) 0 (p1 + 1) 0

/-- `eval_no_bc` in one dimension (spline_evaluator.hpp lines 557-605). -/
def noBc1 (bs : BSpl K) (order : Option U64) (x : K) (coef : Coefs K) : Res K := do
  let (v, j) ← jminVals bs order x
  sum1 bs.degree v j coef

/-- `eval_no_bc` in two dimensions (spline_evaluator_2d.hpp lines 741-825). -/
def noBc2 (b1 b2 : BSpl K) (o1 o2 : Option U64) (x1 x2 : K) (coef : Coefs K) : Res K := do
  let (v1, j1) ← jminVals b1 o1 x1
  let (v2, j2) ← jminVals b2 o2 x2
  sum2 b1.degree b2.degree v1 v2 j1 j2 coef

/-- `eval_no_bc` in three dimensions (spline_evaluator_3d.hpp lines 901-1019). -/
def noBc3 (b1 b2 b3 : BSpl K) (o1 o2 o3 : Option U64) (x1 x2 x3 : K) (coef : Coefs K) : Res K := do
  let (v1, j1) ← jminVals b1 o1 x1
  let (v2, j2) ← jminVals b2 o2 x2
  let (v3, j3) ← jminVals b3 o3 x3
  forLoop (fun i y => forLoop (fun j y => forLoop (fun k y => do
    let c ← coef [j1 + BitVec.ofNat 64 i, j2 + BitVec.ofNat 64 j, j3 + BitVec.ofNat 64 k]
    let w1 ← v1.rd i
    let w2 ← v2.rd j
    let w3 ← v3.rd k
    .ok (y + c * w1 * w2 * w3)) 0 (b3.degree + 1) y) 0 (b2.degree + 1) y) 0 (b1.degree + 1) 0

/-- `for_each(bounds, f, is...)` (spline_evaluator_nd.hpp lines 758-772): `is` is the list of the indices
already chosen, `f` changes a state. -/
def forEachN {σ : Type} (f : List Nat → σ → Res σ) : List Nat → List Nat → σ → Res σ
  | [], is, s => f is s
  | b :: bounds, is, s => forLoop (fun i s => forEachN f bounds (is ++ [i]) s) 0 b s

/-- The fold `(vals[idx] * ...)` of spline_evaluator_nd.hpp line 819 (an expression fold on the right, that
needs at least one dimension). -/
def foldVals : List (Arr K) → List Nat → Res K
  | [v], [i] => v.rd i
  | v :: vs, i :: is => do
    let w ← v.rd i
    let r ← foldVals vs is
    .ok (w * r)
  | _, _ => .ill

/-- One dimension of an evaluator: its B-splines, the order of derivation and the coordinate. -/
abbrev Dim (K : Type) := BSpl K × Option U64 × K

/-- `eval_no_bc` in any number of dimensions (spline_evaluator_nd.hpp lines 782-824). -/
def noBcN (dims : List (Dim K)) (coef : Coefs K) : Res K := do
  let vj ← dims.mapM fun d => jminVals d.1 d.2.1 d.2.2
  forEachN (fun idx y => do
    let c ← coef (List.zipWith (fun j i => j + BitVec.ofNat 64 i) (vj.map (·.2)) idx)
    let w ← foldVals (vj.map (·.1)) idx
    .ok (y + c * w)) (dims.map fun d => d.1.degree + 1) [] 0

/-! ## Extrapolation -/

/-- An extrapolation rule: a function of the coordinate and of the coefficients. -/
abbrev Rule (K : Type) := List K → Coefs K → Res K

/-- `NullExtrapolationRule` (null_extrapolation_rule.hpp lines 21-25). -/
def nullRule : Rule K := fun _ _ => .ok 0

/-- `PeriodicExtrapolationRule` (periodic_extrapolation_rule.hpp lines 18-24); the assertion on a string literal
always holds. -/
def periodicRule : Rule K := fun _ _ => .ok 0

/-- `ConstantExtrapolationRule<DimI>` (constant_extrapolation_rule.hpp lines 41, 51-72). -/
def constantRule1 (bs : BSpl K) (pos : K) : Rule K := fun _ coef => do
  let (v, e) ← bs.evalBasis (Arr.uninit (bs.degree + 1)) pos
  let j ← uid1 e
  sum1 bs.degree v j coef

/-- `Kokkos::clamp(x, lo, hi)`; the behaviour is undefined if `hi < lo`. -/
def clamp (x lo hi : K) : Res K := if hi < lo then .ub else .ok (if x < lo then lo else if hi < x then hi else x)

/-- `ConstantExtrapolationRule<DimI, DimNI>` (constant_extrapolation_rule.hpp lines 103-111, 146-194), for the coefficients on
the B-splines `b1`, `b2`; `first` tells whether `DimI` is the dimension of `b1`.  `per` is `DimNI::PERIODIC`. -/
def constantRule2 (first : Bool) (b1 b2 : BSpl K) (per : Bool) (pos lo hi : K) : Rule K := fun x coef =>
  match x with
  | [x1, x2] => do
    let other := if first then x2 else x1
    let other ← if per then .ok other else clamp other lo hi
    let (v1, e1) ← b1.evalBasis (Arr.uninit (b1.degree + 1)) (if first then pos else other)
    let j1 ← uid1 e1
    let (v2, e2) ← b2.evalBasis (Arr.uninit (b2.degree + 1)) (if first then other else pos)
    let j2 ← uid1 e2
    sum2 b1.degree b2.degree v1 v2 j1 j2 coef
  | _ => .ill

/-- The constructor `ConstantExtrapolationRule(eval_pos)` of the periodic case (constant_extrapolation_rule.hpp
lines 123-129). -/
def constantRule2Per (first : Bool) (b1 b2 : BSpl K) (pos : K) : Rule K := constantRule2 first b1 b2 true pos 0 0

/-- The reduction of a coordinate in a periodic dimension (spline_evaluator.hpp lines 537-543,
spline_evaluator_2d.hpp lines 687-708, spline_evaluator_3d.hpp lines 823-855, spline_evaluator_nd.hpp
`update_coord_eval` lines 639-656). -/
def wrap (bs : BSpl K) (x : K) : Res K :=
  if bs.periodic then do
    let a ← bs.rmin
    let b ← bs.rmax
    if x < a ∨ b < x then do
      let l ← bs.length
      .ok (x - (⌊(x - a) / l⌋ : K) * l)
    else .ok x
  else .ok x

/-- One dimension of an evaluator: its B-splines and its two rules. -/
structure Side (K : Type) where
  bs : BSpl K
  lower : Rule K
  upper : Rule K

/-- The rule that applies to the coordinate `x` in a dimension, if any (spline_evaluator.hpp lines 545-550,
spline_evaluator_2d.hpp lines 709-724, spline_evaluator_3d.hpp lines 856-879, spline_evaluator_nd.hpp
`check_needs_extrapolation` lines 658-683). -/
def needs (s : Side K) (x : K) : Res (Option (Rule K)) :=
  if s.bs.periodic then .ok none
  else do
    let a ← s.bs.rmin
    if x < a then .ok (some s.lower)
    else do
      let b ← s.bs.rmax
      if b < x then .ok (some s.upper) else .ok none

/-- `eval` in one dimension (spline_evaluator.hpp lines 530-554). -/
def eval1 (s : Side K) (x : K) (coef : Coefs K) : Res K := do
  let x ← wrap s.bs x
  match ← needs s x with
  | some r => r [x] coef
  | none => noBc1 s.bs none x coef

/-- `eval` in two dimensions (spline_evaluator_2d.hpp lines 679-730). -/
def eval2 (s1 s2 : Side K) (x1 x2 : K) (coef : Coefs K) : Res K := do
  let x1 ← wrap s1.bs x1
  let x2 ← wrap s2.bs x2
  match ← needs s1 x1 with
  | some r => r [x1, x2] coef
  | none =>
    match ← needs s2 x2 with
    | some r => r [x1, x2] coef
    | none => noBc2 s1.bs s2.bs none none x1 x2 coef

/-- `eval` in three dimensions (spline_evaluator_3d.hpp lines 815-889). -/
def eval3 (s1 s2 s3 : Side K) (x1 x2 x3 : K) (coef : Coefs K) : Res K := do
  let x1 ← wrap s1.bs x1
  let x2 ← wrap s2.bs x2
  let x3 ← wrap s3.bs x3
  match ← needs s1 x1 with
  | some r => r [x1, x2, x3] coef
  | none =>
    match ← needs s2 x2 with
    | some r => r [x1, x2, x3] coef
    | none =>
      match ← needs s3 x3 with
      | some r => r [x1, x2, x3] coef
      | none => noBc3 s1.bs s2.bs s3.bs none none none x1 x2 x3 coef

/-- `(... || check_needs_extrapolation(...))` (spline_evaluator_nd.hpp lines 708-710): the first dimension that
needs a rule. -/
def firstRule : List (Side K × K) → Res (Option (Rule K))
  | [] => .ok none
  | (s, x) :: l => do
    match ← needs s x with
    | some r => .ok (some r)
    | none => firstRule l

/-- `eval` in any number of dimensions (spline_evaluator_nd.hpp lines 697-721). -/
def evalN (sides : List (Side K)) (x : List K) (coef : Coefs K) : Res K := do
  let x ← (List.zip sides x).mapM fun d => wrap d.1.bs d.2
  match ← firstRule (List.zip sides x) with
  | some r => r x coef
  | none => noBcN ((List.zip sides x).map fun d => (d.1.bs, none, d.2)) coef

/-- `deriv` on a coordinate in one dimension (spline_evaluator.hpp lines 358-366): without reduction of the
coordinate and without the rules. -/
def deriv1 (bs : BSpl K) (order : U64) (x : K) (coef : Coefs K) : Res K := noBc1 bs (some order) x coef

/-- A column of the chunk of the coefficients, `spline_coef[j]`, on a domain that starts at `0`. -/
def column (m : Mat K) (j : Nat) : Coefs K
  | [i] => m.rd i.toNat j
  | _ => .ill

/-- `operator()` on a mesh in one dimension (spline_evaluator.hpp lines 256-294, and lines 314-341 where the
coordinates are those of the mesh); the rows are the elements of `evaluation_domain`, the columns those of
`batch_domain`. -/
def evalMesh1 (σ : Sched) (s : Side K) (coords coef out : Mat K) : Res (Mat K) :=
  Builder.colLoop σ (fun j => forLoop (fun i out => do
    let x ← coords.rd i j
    let y ← eval1 s x (column coef j)
    out.wr i j y) 0 out.rows) out

/-- `deriv` on a mesh in one dimension (spline_evaluator.hpp lines 388-431 and 447-478). -/
def derivMesh1 (σ : Sched) (bs : BSpl K) (order : U64) (coords coef out : Mat K) : Res (Mat K) :=
  Builder.colLoop σ (fun j => forLoop (fun i out => do
    let x ← coords.rd i j
    let y ← deriv1 bs order x (column coef j)
    out.wr i j y) 0 out.rows) out

end Eval

end

end DDC
