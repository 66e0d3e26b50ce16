import Verif.Model.RoundedPoints
import Verif.Model.RoundedBasis
import Verif.Model.Builder

/-!
# The matrix of `SplineBuilder`, with rounding

The assembly of the interpolation matrix with every floating-point operation followed by a rounding `fl` (see
`Model/Rounded.lean`), for closures without equations on derivatives: `PERIODIC`, or `GREVILLE` at both ends.  The only
operations are those of `eval_basis`.  Not modelled with rounding: the rows of the `HERMITE` closures, `check_valid_grid`
(it only compares), and the factorization and the solution of the system.
-/

namespace DDC.Rounded

variable (fl : Rat → Rat)

/-- The template parameter `BSplines`, like `BSpl`. -/
inductive Spl where
  | uniform (k : Knots) (per : Bool)
  | nonUniform (u : NUBS Rat)

namespace Spl

/-- `degree()` -/
def degree : Spl → Nat
  | uniform k _ => k.p
  | nonUniform u => u.degree

/-- `is_periodic()` -/
def periodic : Spl → Bool
  | uniform _ per => per
  | nonUniform u => u.periodic

/-- `is_uniform()` -/
def isUniform : Spl → Bool
  | uniform _ _ => true
  | nonUniform _ => false

/-- `nbasis()` (bsplines_uniform.hpp lines 338-341, bsplines_non_uniform.hpp lines 360-363). -/
def nbasis : Spl → Res U64
  | uniform k per => .ok (BitVec.ofNat 64 (if per then k.n else k.n + k.p))
  | nonUniform u => u.nbasis

/-- `eval_basis(values, x)`: the values and the number of the first B-spline. -/
def evalBasis : Spl → Arr Rat → Rat → Res (Arr Rat × U64)
  | uniform k _, v, x => do
    let (v, j) ← k.evalBasis fl v x
    .ok (v, BitVec.ofInt 64 j)
  | nonUniform u, v, x => do
    let (v, e) ← Rounded.evalBasis fl u v x
    let j ← uid1 e
    .ok (v, j)

end Spl

/-- `compute_offset` (spline_builder.hpp lines 634-658). -/
def computeOffset (bs : Spl) (dom : Dom Unit) (coord : Elem Unit → Res Rat) : Res Int :=
  if bs.periodic then do
    let p := bs.degree
    let start := Dom.front dom
    let e ← Elem.addInt start (BitVec.ofNat 64 p)
    let x ← coord e
    let (values, j) ← bs.evalBasis fl (Arr.uninit (p + 1)) x
    let s ← uid1 start
    if p % 2 = 0 then .ok (UBS.sizeToInt (j - s + BitVec.ofNat 64 (p / 2) - BitVec.ofNat 64 p))
    else do
      let mid := p / 2
      let v ← values.rd mid
      let w ← values.rd (mid + 1)
      .ok (UBS.sizeToInt (j - s + BitVec.ofNat 64 (if w < v then mid else mid + 1) - BitVec.ofNat 64 p))
  else .ok 0

/-- The sizes of the blocks and the creation of the matrix (spline_builder.hpp lines 244-258, 740-763), for the closures
of this file: no computation on `double`. -/
def allocateMatrix (bs : Spl) : Res (LinProb Rat) := do
  let bw : Int := if bs.isUniform then (bs.degree : Int) / 2 else (bs.degree : Int) - 1
  let block := Closure.greville.blockSize bs.isUniform bs.degree 0
  let nb ← bs.nbasis
  if bs.periodic then makePeriodic (UBS.sizeToInt nb) bw bw bs.isUniform
  else makeBlocks (UBS.sizeToInt nb) bw bw bs.isUniform block block

/-- The row of an interpolation point (`build_matrix_system`, spline_builder.hpp lines 838-852), like `DDC.pointRow`. -/
def pointRow (bs : Spl) (coord : Elem Unit → Res Rat) (offset start : Int) (ix : Elem Unit)
    (s : Arr Rat × LinProb Rat) : Res (Arr Rat × LinProb Rat) := do
  let p := bs.degree
  let x ← coord ix
  let (v, jm) ← bs.evalBasis fl s.1 x
  let u ← uid1 ix
  let m ← forLoop (fun r m => do
    let nb ← bs.nbasis
    let j ← modulo (UBS.sizeToInt (jm - BitVec.ofInt 64 offset + BitVec.ofNat 64 r)) (UBS.sizeToInt nb)
    let y ← v.rd r
    m.set (u - BitVec.ofInt 64 start) (BitVec.ofInt 64 j) y) 0 (p + 1) s.2
  .ok (v, m)

/-- `build_matrix_system` (spline_builder.hpp lines 791-886). -/
def buildMatrix (bs : Spl) (dom : Dom Unit) (coord : Elem Unit → Res Rat) (offset : Int) (m : LinProb Rat) :
    Res (LinProb Rat) := do
  let start ← uid1 (Dom.front dom)
  let s ← hostForEach1 dom (pointRow fl bs coord offset (UBS.sizeToInt start)) (Arr.uninit (bs.degree + 1), m)
  .ok s.2

/-- The constructor up to `setup_solver` (spline_builder.hpp lines 227-260, 727-774): the shift and the matrix. -/
def assemble (bs : Spl) (dom : Dom Unit) (coord : Elem Unit → Res Rat) : Res (Int × LinProb Rat) := do
  let offset ← computeOffset fl bs dom coord
  let m ← allocateMatrix bs
  let m ← buildMatrix fl bs dom coord offset m
  .ok (offset, m)

end DDC.Rounded
