import Verif.Model.Points
import Verif.Model.Linear
import Verif.Model.Integrals

/-!
# `SplineBuilder`

Model of `/repo/src/ddc/kernels/splines/spline_builder.hpp`, with the direct solvers
(`SplineSolver::LAPACK`; the iterative one differs by the linear problem only, see `Model/Linear.lean`).

Simplifications common to the file:
* `double` is a linearly ordered field `K`;
* a chunk on the dimension of interest and batch dimensions is a `Mat`: a row for each index in the
  dimension of interest, a column for each element of the batch domain, in the order of the memory of
  `spline_tr` (the access by elements is the subject of `Model/Chunk.lean`);
* slicing a chunk by a domain that is not inside of its own is `ub`;
* the interpolation mesh is its domain and the function `ddc::coordinate`;
* the counters of type `int` of the kernels do not overflow.
-/

namespace DDC

/-! ## The two classes of B-splines -/

/-- The template parameter `BSplines`. -/
inductive BSpl (K : Type) where
  | uniform (u : UBS K)
  | nonUniform (u : NUBS K)

namespace BSpl

variable {K : Type} [Field K] [LinearOrder K]

/-- `degree()` -/
def degree : BSpl K → Nat
  | uniform u => u.degree
  | nonUniform u => u.degree

/-- `is_periodic()` -/
def periodic : BSpl K → Bool
  | uniform u => u.periodic
  | nonUniform u => u.periodic

/-- `is_uniform()` -/
def isUniform : BSpl K → Bool
  | uniform _ => true
  | nonUniform _ => false

/-- `rmin()` -/
def rmin : BSpl K → Res K
  | uniform u => u.rmin
  | nonUniform u => u.rmin

/-- `rmax()` -/
def rmax : BSpl K → Res K
  | uniform u => u.rmax
  | nonUniform u => u.rmax

/-- `ncells()` -/
def ncells : BSpl K → Res U64
  | uniform u => u.ncells
  | nonUniform u => u.ncells

/-- `nbasis()` -/
def nbasis : BSpl K → Res U64
  | uniform u => u.nbasis
  | nonUniform u => u.nbasis

/-- `full_domain()` -/
def fullDomain : BSpl K → Res (Dom Unit)
  | uniform u => u.fullDomain
  | nonUniform u => u.fullDomain

/-- `break_point_domain()` -/
def breakDom : BSpl K → Dom Unit
  | uniform u => u.breakDom
  | nonUniform u => u.breakDom

/-- `ddc::coordinate` of a knot. -/
def knot : BSpl K → Elem Unit → Res K
  | uniform u, e => u.knots.coordinate e
  | nonUniform u, e => u.knots.coordinate e

/-- `eval_basis(values, x)` -/
def evalBasis [FloorRing K] : BSpl K → Arr K → K → Res (Arr K × Elem Unit)
  | uniform u, v, x => u.evalBasis v x
  | nonUniform u, v, x => u.evalBasis v x

/-- `eval_deriv(derivs, x)` -/
def evalDeriv [FloorRing K] : BSpl K → Arr K → K → Res (Arr K × Elem Unit)
  | uniform u, v, x => u.evalDeriv v x
  | nonUniform u, v, x => u.evalDeriv v x

/-- `eval_basis_and_n_derivs(derivs, x, n)` -/
def evalNDerivs [FloorRing K] : BSpl K → Arr2 K → K → Nat → Res (Arr2 K × Elem Unit)
  | uniform u, d, x, n => u.evalBasisAndNDerivs d x n
  | nonUniform u, d, x, n => u.evalBasisAndNDerivs d x n

end BSpl

/-- `modulo(x, y)` on `int` (math_tools.hpp lines 56-60).  The quotient of two `int`s is computed on
`double` accurately enough for its integer part to be exact (`C57_modulo_int`); a division by zero gives a NaN, whose
conversion to `int` is undefined. -/
def modulo (x y : Int) : Res Int := if y = 0 then .ub else .ok (x - y * Int.fdiv x y)

/-- `ipow(a, i)` for `i >= 0` (math_tools.hpp lines 62-85). -/
def ipow {K : Type} [Field K] (a : K) : Nat → K
  | 0 => 1
  | i + 1 => ipow a i * a

section

variable {K : Type} [Field K] [LinearOrder K]

/-! ## Construction -/

/-- `check_n_points_in_cell` (spline_builder.hpp lines 1253-1263); the text of the exception is not
modelled. -/
def checkPointsInCell (degree n : Nat) : Res Unit := if degree + 1 < n then .throw else .ok ()

/-- The body of the loop of `check_valid_grid` (spline_builder.hpp lines 1293-1313); the state is
`n_points_in_cell` and `current_cell_end_idx`. -/
def gridStep (bs : BSpl K) (coord : Elem Unit → Res K) (idx : Elem Unit) (s : Nat × Elem Unit) :
    Res (Nat × Elem Unit) := do
  let point ← coord idx
  let stop ← bs.knot s.2
  if stop < point then do
    checkPointsInCell bs.degree s.1
    let e ← Elem.addInt s.2 1
    .ok (1, e)
  else if point = stop then do
    checkPointsInCell bs.degree (s.1 + 1)
    let e ← Elem.addInt s.2 1
    .ok (1, e)
  else .ok (s.1 + 1, s.2)

/-- `check_valid_grid` (spline_builder.hpp lines 1280-1317). -/
def checkValidGrid (bs : BSpl K) (lower upper : Closure) (dom : Dom Unit) (coord : Elem Unit → Res K) :
    Res Unit := do
  let n ← Dom.size dom
  let nb ← bs.nbasis
  if n ≠ nb - BitVec.ofNat 64 (lower.equations bs.degree) - BitVec.ofNat 64 (upper.equations bs.degree) then
    .throw
  else do
    let e ← Elem.addInt (Dom.front bs.breakDom) 1
    let s ← hostForEach1 dom (gridStep bs coord) (0, e)
    checkPointsInCell bs.degree s.1

/-- `compute_offset` (spline_builder.hpp lines 634-658): computed on `size_t`, stored in an `int`. -/
def computeOffset [FloorRing K] (bs : BSpl K) (dom : Dom Unit) (coord : Elem Unit → Res K) : Res Int :=
  if bs.periodic then do
    let p := bs.degree
    let start := Dom.front dom
    let e ← Elem.addInt start (BitVec.ofNat 64 p)
    let x ← coord e
    let (values, jmin) ← bs.evalBasis (Arr.uninit (p + 1)) x
    let j ← uid1 jmin
    let s ← uid1 start
    if p % 2 = 0 then .ok (UBS.sizeToInt (j - s + BitVec.ofNat 64 (p / 2) - BitVec.ofNat 64 p))
    else do
      let mid := p / 2
      let v ← values.rd mid
      let w ← values.rd (mid + 1)
      .ok (UBS.sizeToInt (j - s + BitVec.ofNat 64 (if w < v then mid else mid + 1) - BitVec.ofNat 64 p))
  else .ok 0

/-- `compute_block_sizes_uniform` and `compute_block_sizes_non_uniform` (spline_builder.hpp
lines 668-716). -/
def Closure.blockSize (c : Closure) (uniform : Bool) (degree nbc : Nat) : Int :=
  match uniform, c with
  | true, .periodic => (degree : Int) / 2
  | true, .hermite => nbc
  | true, .homogeneousHermite => nbc
  | true, .greville => (degree : Int) - 1
  | false, .periodic => (degree : Int) - 1
  | false, .greville => (degree : Int) - 1
  | false, .hermite => (nbc : Int) + 1
  | false, .homogeneousHermite => (nbc : Int) + 1

/-- The creation of the matrix (`allocate_matrix`, spline_builder.hpp lines 740-763). -/
def allocateMatrix (bs : BSpl K) (lowerBlock upperBlock : Int) : Res (LinProb K) := do
  let bw : Int := if bs.isUniform then (bs.degree : Int) / 2 else (bs.degree : Int) - 1
  let nb ← bs.nbasis
  if bs.periodic then makePeriodic (UBS.sizeToInt nb) bw bw bs.isUniform
  else makeBlocks (UBS.sizeToInt nb) bw bw bs.isUniform lowerBlock upperBlock

/-- The derivatives of order `j` are multiplied by `dx^j` (spline_builder.hpp lines 816-820,
864-868). -/
def scaleDerivs (p : Nat) (dx : K) (d : Arr2 K) : Res (Arr2 K) :=
  forLoop (fun i d => forLoop (fun j d => do
    let v ← d.rd i j
    d.wr i j (v * ipow dx j)) 1 (p / 2) d) 0 (p + 1) d

/-- The rows of the closure at `rmin` (`build_matrix_system`, spline_builder.hpp lines 800-830). -/
def setLowerRows [FloorRing K] (bs : BSpl K) (nbe : Nat) (dx : K) (m : LinProb K) : Res (LinProb K) := do
  let p := bs.degree
  let a ← bs.rmin
  let (d, _) ← bs.evalNDerivs (Arr2.uninit (p + 1) (p / 2 + 1)) a nbe
  let d ← scaleDerivs p dx d
  forLoop (fun i m => forLoop (fun j m => do
    let v ← d.rd j ((i + p % 2 : Nat) : Int)
    m.set (BitVec.ofNat 64 i) (BitVec.ofNat 64 j) v) 0 p m) 0 nbe m

/-- The row of an interpolation point (`build_matrix_system`, spline_builder.hpp lines 838-852); the
state is the array `values` and the matrix. -/
def pointRow [FloorRing K] (bs : BSpl K) (nbe : Nat) (coord : Elem Unit → Res K) (offset start : Int)
    (ix : Elem Unit) (s : Arr K × LinProb K) : Res (Arr K × LinProb K) := do
  let p := bs.degree
  let x ← coord ix
  let (v, jmin) ← bs.evalBasis s.1 x
  let u ← uid1 ix
  let m ← forLoop (fun r m => do
    let jm ← uid1 jmin
    let nb ← bs.nbasis
    let j ← modulo (UBS.sizeToInt (jm - BitVec.ofInt 64 offset + BitVec.ofNat 64 r)) (UBS.sizeToInt nb)
    let y ← v.rd r
    m.set (u - BitVec.ofInt 64 start + BitVec.ofNat 64 nbe) (BitVec.ofInt 64 j) y) 0 (p + 1) s.2
  .ok (v, m)

/-- The rows of the closure at `rmax` (`build_matrix_system`, spline_builder.hpp lines 854-885). -/
def setUpperRows [FloorRing K] (bs : BSpl K) (nbe : Nat) (dx : K) (m : LinProb K) : Res (LinProb K) := do
  let p := bs.degree
  let b ← bs.rmax
  let (d, _) ← bs.evalNDerivs (Arr2.uninit (p + 1) (p / 2 + 1)) b nbe
  let d ← scaleDerivs p dx d
  let nb ← bs.nbasis
  let i0 := UBS.sizeToInt (nb - BitVec.ofNat 64 nbe)
  let j0 := UBS.sizeToInt (nb - BitVec.ofNat 64 p)
  forLoop (fun j m => forLoop (fun i m => do
    let v ← d.rd ((j + 1 : Nat) : Int) ((i + p % 2 : Nat) : Int)
    m.set (BitVec.ofInt 64 i0 + BitVec.ofNat 64 i) (BitVec.ofInt 64 j0 + BitVec.ofNat 64 j) v) 0 nbe m) 0 p m

/-- HERMITE or HOMOGENEOUS_HERMITE. -/
def Closure.isHermite (c : Closure) : Bool := c = .hermite || c = .homogeneousHermite

/-- `build_matrix_system` (spline_builder.hpp lines 791-886). -/
def buildMatrix [FloorRing K] (bs : BSpl K) (lower upper : Closure) (dom : Dom Unit)
    (coord : Elem Unit → Res K) (dx : K) (offset : Int) (m : LinProb K) : Res (LinProb K) := do
  let p := bs.degree
  let m ← if lower.isHermite then setLowerRows bs (lower.equations p) dx m else .ok m
  let start ← uid1 (Dom.front dom)
  let s ← hostForEach1 dom (pointRow bs (lower.equations p) coord offset (UBS.sizeToInt start))
    (Arr.uninit (p + 1), m)
  if upper.isHermite then setUpperRows bs (upper.equations p) dx s.2 else .ok s.2

/-- The members of `SplineBuilder` (spline_builder.hpp lines 184-196).  The linear problem is kept
before and after `setup_solver`. -/
structure Builder (K : Type) where
  bs : BSpl K
  lower : Closure
  upper : Closure
  dom : Dom Unit
  dx : K
  offset : Int
  matrix : LinProb K
  solver : Solver K

namespace Builder

/-- Constructor (spline_builder.hpp lines 227-260, 727-774) with the `static_assert`s of lines 67-71. -/
def mk' [FloorRing K] (L : Lapack K) (σ : Sched) (bs : BSpl K) (lower upper : Closure) (dom : Dom Unit)
    (coord : Elem Unit → Res K) : Res (Builder K) := do
  Res.guardIll (bs.periodic == decide (lower = .periodic) && bs.periodic == decide (upper = .periodic))
  let b ← bs.rmax
  let a ← bs.rmin
  let n ← bs.ncells
  let dx := (b - a) / (n.toNat : K)
  checkValidGrid bs lower upper dom coord
  let offset ← computeOffset bs dom coord
  let upperBlock := lower.blockSize bs.isUniform bs.degree (lower.equations bs.degree)
  let lowerBlock := upper.blockSize bs.isUniform bs.degree (upper.equations bs.degree)
  let m ← allocateMatrix bs lowerBlock upperBlock
  let m ← buildMatrix bs lower upper dom coord dx offset m
  let S ← m.setup L σ
  .ok ⟨bs, lower, upper, dom, dx, offset, m, S⟩

/-! ## `operator()` -/

/-- `parallel_for_each` over the batch domain. -/
def colLoop (σ : Sched) (f : Nat → Mat K → Res (Mat K)) (b : Mat K) : Res (Mat K) :=
  (σ.cols b.cols).foldlM (fun b j => f j b) b

/-- `parallel_fill(b[DiscreteDomain(lo, count)], 0)`. -/
def fillRows (lo : Nat) (count : Int) (b : Mat K) : Res (Mat K) :=
  if 0 ≤ count ∧ (lo : Int) + count ≤ b.rows then
    .ok ⟨b.rows, b.cols, fun r c => if lo ≤ r ∧ (r : Int) < lo + count then 0 else b.val r c⟩
  else .ub

/-- `deep_copy(b[DiscreteDomain(lo, extent of v)], v)`. -/
def putRows (lo : Int) (v b : Mat K) : Res (Mat K) :=
  if 0 ≤ lo ∧ lo + v.rows ≤ b.rows ∧ v.cols = b.cols then
    .ok ⟨b.rows, b.cols, fun r c =>
      if lo ≤ r ∧ (r : Int) < lo + v.rows then v.val ((r : Int) - lo).toNat c else b.val r c⟩
  else .ub

/-- The checks on the derivatives given by the user (spline_builder.hpp lines 938-949): the chunk is its
first index in the dimension `Deriv` and its values. -/
def checkDerivs (c : Closure) (odd : Nat) (d : Option (U64 × Mat K)) : Res Unit :=
  if c = .hermite then
    match d with
    | none => .ub
    | some (f, _) => Res.guardAbort (decide (f = BitVec.ofNat 64 odd))
  else
    match d with
    | none => .ok ()
    | some (_, v) => Res.guardAbort (decide (v.rows = 0))

/-- The right-hand side of the closure relations, from row `lo` (spline_builder.hpp lines 954-980 with
`lo = 0`, 1006-1034 with `lo = nbasis - s_nbe_xmax`). -/
def closureRows (σ : Sched) (c : Closure) (odd nbe : Nat) (dx : K) (lo : U64) (d : Option (U64 × Mat K))
    (b : Mat K) : Res (Mat K) :=
  match c with
  | .hermite =>
    match d with
    | none => .ub
    | some (f, v) => do
      Res.guardAbort (decide (v.rows = nbe))
      colLoop σ (fun j => forLoop (fun i b => do
        let y ← v.rd (i + odd - f.toNat) j
        b.wr (lo + BitVec.ofNat 64 i).toNat j (y * ipow dx (i + odd))) 0 nbe) b
  | .homogeneousHermite => fillRows lo.toNat nbe b
  | _ => .ok b

/-- `spline_tr(i) = spline(i + offset)` (spline_builder.hpp lines 1043-1054). -/
def toTr (σ : Sched) (nb : U64) (offset : Int) (spline tr : Mat K) : Res (Mat K) :=
  colLoop σ (fun j => forLoop (fun i tr => do
    let v ← spline.rd (BitVec.ofNat 64 i + BitVec.ofInt 64 offset).toNat j
    tr.wr i j v) 0 nb.toNat) tr

/-- `spline(i + offset) = spline_tr(i)` (spline_builder.hpp lines 1063-1073). -/
def fromTr (σ : Sched) (nb : U64) (offset : Int) (tr spline : Mat K) : Res (Mat K) :=
  colLoop σ (fun j => forLoop (fun i b => do
    let v ← tr.rd i j
    b.wr (BitVec.ofNat 64 i + BitVec.ofInt 64 offset).toNat j v) 0 nb.toNat) spline

/-- `spline(dst(i)) = spline(src(i))` for the indices `lo … lo + count - 1`. -/
def copyCoefs (dst src : Nat → Nat) (lo count j : Nat) (b : Mat K) : Res (Mat K) :=
  forLoop (fun i b => do
    let v ← b.rd (src i) j
    b.wr (dst i) j v) lo count b

/-- The duplication of the coefficients in a periodic dimension (spline_builder.hpp lines 1076-1100). -/
def duplicate (σ : Sched) (p : Nat) (nb : U64) (offset : Int) (spline : Mat K) : Res (Mat K) :=
  colLoop σ (fun j b => do
    let b ←
      if offset ≠ 0 then do
        let b ← copyCoefs (fun i => i) (fun i => (nb + BitVec.ofNat 64 i).toNat) 0 offset.toNat j b
        let lo := (BitVec.ofInt 64 offset).toNat
        copyCoefs (fun i => (nb + BitVec.ofNat 64 i).toNat) (fun i => i) lo (p - lo) j b
      else .ok b
    copyCoefs (fun i => (nb + BitVec.ofNat 64 i).toNat) (fun i => i) 0 p j b) spline

/-- `operator()` (spline_builder.hpp lines 905-1101).  The rows of `vals` and the columns of all chunks
are the extents of domains whose equality is asserted; `junk` is the content of the memory of
`spline_tr` when it is allocated. -/
def apply (L : Lapack K) (σ : Sched) (B : Builder K) (junk : Nat → Nat → K) (spline vals : Mat K)
    (dmin dmax : Option (U64 × Mat K)) : Res (Mat K) := do
  let p := B.bs.degree
  let nbeMin := B.lower.equations p
  let nbeMax := B.upper.equations p
  let n ← Dom.size B.dom
  Res.guardAbort (decide (vals.rows = n.toNat))
  Res.guardAbort (decide (vals.cols = spline.cols))
  if vals.cols = 0 then .ok spline
  else do
    let nb ← B.bs.nbasis
    Res.guardAbort (decide (n = nb - BitVec.ofNat 64 nbeMin - BitVec.ofNat 64 nbeMax))
    checkDerivs B.lower (p % 2) dmin
    checkDerivs B.upper (p % 2) dmax
    let spline ← closureRows σ B.lower (p % 2) nbeMin B.dx 0 dmin spline
    let spline ← fillRows nbeMin B.offset spline
    let spline ← putRows ((nbeMin : Int) + B.offset) vals spline
    let spline ← closureRows σ B.upper (p % 2) nbeMax B.dx (nb - BitVec.ofNat 64 nbeMax) dmax spline
    let rows ← B.matrix.requiredRows
    let tr ← toTr σ nb B.offset spline ⟨rows.toNat, vals.cols, junk⟩
    let tr ← B.solver.solve L σ false rows.toNat 0 tr
    let spline ← fromTr σ nb B.offset tr spline
    if B.bs.periodic then duplicate σ p nb B.offset spline else .ok spline

end Builder

end

end DDC
