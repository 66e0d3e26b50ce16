import Verif.Model.Element
import Verif.Model.Loop
import Mathlib.Algebra.Order.Field.Basic

/-!
# Linear problems of the splines: `detail::SplinesLinearProblem`

Models the storages and solvers of `/repo/src/ddc/kernels/splines/splines_linear_problem*.{hpp,cpp}`.

Simplifications common to the file:
* `double` is a linearly ordered field `K`;
* host and device memory are the same memory (the `DualView` synchronisations are dropped);
* the loop counters of type `int` of the kernels do not overflow (all extents are below `2^31`);
* LAPACK and KokkosBatched are a parameter `Lapack`, used through the documented matrix they read from
  a packed storage (`lapackDense`, `lapackBand`, `lapackSymBand`, `lapackTridiag`);
* a parallel loop runs its iterations in an arbitrary order given by `Sched`.

`assert` is active and gives `abort`; an access outside of a `Kokkos::View` is `ub`.
-/

namespace DDC

/-- A `Kokkos::View<double**>` whose entries are initialised. -/
structure Mat (K : Type) where
  rows : Nat
  cols : Nat
  val : Nat → Nat → K

namespace Mat

variable {K : Type}

/-- `a(i, j)` -/
def rd (a : Mat K) (i j : Nat) : Res K := if i < a.rows ∧ j < a.cols then .ok (a.val i j) else .ub

/-- `a(i, j) = v` -/
def wr (a : Mat K) (i j : Nat) (v : K) : Res (Mat K) :=
  if i < a.rows ∧ j < a.cols then .ok ⟨a.rows, a.cols, fun k l => if k = i ∧ l = j then v else a.val k l⟩
  else .ub

/-- An array filled with zero. -/
def zero [Zero K] (m n : U64) : Mat K := ⟨m.toNat, n.toNat, fun _ _ => 0⟩

end Mat

/-- The orders of the iterations of the parallel loops: over the columns of a matrix, and over the
entries of a square matrix. -/
structure Sched where
  cols : Nat → List Nat
  pairs : Nat → List (Nat × Nat)

/-- The external solvers.  `regular` is "`info == 0`" of the LU factorisations (`dgetrf`, `dgbtrf`),
`posDef` of the Cholesky factorisations (`dpbtrf`, `dpttrf`); `solve transpose n A b` is what the
triangular solvers leave in the right-hand side. -/
structure Lapack (K : Type) where
  regular : Nat → (Nat → Nat → K) → Bool
  posDef : Nat → (Nat → Nat → K) → Bool
  solve : Bool → Nat → (Nat → Nat → K) → (Nat → K) → Nat → K

section Storage

variable {K : Type} [Field K] [LinearOrder K]

/-- The tolerance of the `assert`s on the entries out of the band, `1e-15`
(splines_linear_problem_band.cpp line 104, _pds_band.cpp line 79, _pds_tridiag.cpp line 76). -/
def bandTol : K := 1 / 10 ^ 15

/-- The default tolerance of `dense2coo`, `1e-14` (splines_linear_problem_2x2_blocks.hpp line 90). -/
def cooTol : K := 1 / 10 ^ 14

/-! ## Dense storage -/

/-- `get_element` (splines_linear_problem_dense.cpp lines 46-53). -/
def denseGet (n : U64) (a : Mat K) (i j : U64) : Res K := do
  Res.guardAbort (decide (i < n))
  Res.guardAbort (decide (j < n))
  a.rd i.toNat j.toNat

/-- `set_element` (splines_linear_problem_dense.cpp lines 55-64). -/
def denseSet (n : U64) (a : Mat K) (i j : U64) (v : K) : Res (Mat K) := do
  Res.guardAbort (decide (i < n))
  Res.guardAbort (decide (j < n))
  a.wr i.toNat j.toNat v

/-! ## General band storage -/

/-- `band_storage_row_index` (splines_linear_problem_band.cpp lines 54-60). -/
def bandRow (kl ku i j : U64) : U64 := kl + ku + i - j

/-- The test whether a position is in the band (splines_linear_problem_band.cpp lines 74-77, 98-101).
The signed lower bound is converted to `size_t` by the comparison. -/
def inBand (n kl ku i j : U64) : Res Bool := do
  let d ← sSub j ku
  let lo : U64 := if sLt 0 d then d else 0
  let hi : U64 := if j + kl + 1 < n then j + kl + 1 else n
  .ok (decide (lo ≤ i) && decide (i < hi))

/-- `get_element` (splines_linear_problem_band.cpp lines 62-82). -/
def bandGet (n kl ku : U64) (q : Mat K) (i j : U64) : Res K := do
  Res.guardAbort (decide (i < n))
  Res.guardAbort (decide (j < n))
  if ← inBand n kl ku i j then q.rd (bandRow kl ku i j).toNat j.toNat else .ok 0

/-- `set_element` (splines_linear_problem_band.cpp lines 84-106). -/
def bandSet (n kl ku : U64) (q : Mat K) (i j : U64) (v : K) : Res (Mat K) := do
  Res.guardAbort (decide (i < n))
  Res.guardAbort (decide (j < n))
  if ← inBand n kl ku i j then q.wr (bandRow kl ku i j).toNat j.toNat v
  else do
    Res.guardAbort (decide (|v| < bandTol))
    .ok q

/-! ## Symmetric storages -/

/-- `get_element` (splines_linear_problem_pds_band.cpp lines 45-61; with `ext = 2`
splines_linear_problem_pds_tridiag.cpp lines 42-58). -/
def symGet (n ext : U64) (q : Mat K) (i j : U64) : Res K := do
  Res.guardAbort (decide (i < n))
  Res.guardAbort (decide (j < n))
  let (i, j) := if j < i then (j, i) else (i, j)
  if j - i < ext then q.rd (j - i).toNat i.toNat else .ok 0

/-- `set_element` (splines_linear_problem_pds_band.cpp lines 63-81; with `ext = 2`
splines_linear_problem_pds_tridiag.cpp lines 60-78). -/
def symSet (n ext : U64) (q : Mat K) (i j : U64) (v : K) : Res (Mat K) := do
  Res.guardAbort (decide (i < n))
  Res.guardAbort (decide (j < n))
  let (i, j) := if j < i then (j, i) else (i, j)
  if j - i < ext then q.wr (j - i).toNat i.toNat v
  else do
    Res.guardAbort (decide (|v| < bandTol))
    .ok q

/-! ## The class hierarchy -/

/-- A linear problem before `setup_solver`.  The bottom-right block of the block matrices is always a
`SplinesLinearProblemDense` (splines_linear_problem_2x2_blocks.cpp line 90), of size `brn`. -/
inductive LinProb (K : Type) where
  | dense (n : U64) (a : Mat K)
  | band (n kl ku : U64) (q : Mat K)
  | pdsBand (n ext : U64) (q : Mat K)
  | pdsTridiag (n : U64) (q : Mat K)
  | blocks2 (n : U64) (tl : LinProb K) (tr bl : Mat K) (brn : U64) (br : Mat K)
  | blocks3 (n top : U64) (tl : LinProb K) (tr bl : Mat K) (brn : U64) (br : Mat K)

namespace LinProb

/-- `size` (splines_linear_problem.cpp lines 24-28). -/
def size : LinProb K → U64
  | dense n _ => n
  | band n _ _ _ => n
  | pdsBand n _ _ => n
  | pdsTridiag n _ => n
  | blocks2 n _ _ _ _ _ => n
  | blocks3 n _ _ _ _ _ _ => n

/-- `impl_required_number_of_rhs_rows` (splines_linear_problem.cpp lines 38-42,
splines_linear_problem_3x3_blocks.cpp lines 147-151). -/
def implRequiredRows : LinProb K → U64
  | blocks3 n top _ _ _ _ _ => n + top
  | p => p.size

/-- `required_number_of_rhs_rows` (splines_linear_problem.cpp lines 30-36). -/
def requiredRows (p : LinProb K) : Res U64 := do
  Res.guardAbort (decide (p.size ≤ p.implRequiredRows))
  .ok p.implRequiredRows

/-- Constructor (splines_linear_problem_dense.cpp lines 34-41). -/
def mkDense (n : U64) : LinProb K := dense n (Mat.zero n n)

/-- Constructor (splines_linear_problem_band.cpp lines 30-49). -/
def mkBand (n kl ku : U64) : Res (LinProb K) := do
  Res.guardAbort (decide (kl ≤ n))
  Res.guardAbort (decide (ku ≤ n))
  .ok (band n kl ku (Mat.zero (2 * kl + ku + 1) n))

/-- Constructor (splines_linear_problem_pds_band.cpp lines 30-40). -/
def mkPdsBand (n kd : U64) : Res (LinProb K) := do
  Res.guardAbort (decide (kd + 1 ≤ n))
  .ok (pdsBand n (kd + 1) (Mat.zero (kd + 1) n))

/-- Constructor (splines_linear_problem_pds_tridiag.cpp lines 30-37). -/
def mkPdsTridiag (n : U64) : LinProb K := pdsTridiag n (Mat.zero 2 n)

/-- Constructor (splines_linear_problem_2x2_blocks.cpp lines 75-96).  The `assert` comes first, the
allocations that precede it fail or are released when it fails. -/
def mkBlocks2 (n : U64) (tl : LinProb K) : Res (LinProb K) := do
  Res.guardAbort (decide (tl.size ≤ n))
  .ok (blocks2 n tl (Mat.zero tl.size (n - tl.size)) (Mat.zero (n - tl.size) tl.size)
    (n - tl.size) (Mat.zero (n - tl.size) (n - tl.size)))

/-- Constructor (splines_linear_problem_3x3_blocks.cpp lines 18-26): the 2x2 one and `m_top_size`. -/
def mkBlocks3 (n top : U64) (center : LinProb K) : Res (LinProb K) := do
  Res.guardAbort (decide (center.size ≤ n))
  .ok (blocks3 n top center (Mat.zero center.size (n - center.size)) (Mat.zero (n - center.size) center.size)
    (n - center.size) (Mat.zero (n - center.size) (n - center.size)))

/-- `SplinesLinearProblem2x2Blocks::get_element` (splines_linear_problem_2x2_blocks.cpp lines 101-123);
`nq` and `tlGet` are the size and the `get_element` of the top-left block. -/
def get2 (n nq : U64) (tlGet : U64 → U64 → Res K) (tr bl : Mat K) (brn : U64) (br : Mat K) (i j : U64) :
    Res K := do
  Res.guardAbort (decide (i < n))
  Res.guardAbort (decide (j < n))
  if i < nq ∧ j < nq then tlGet i j
  else if nq ≤ i ∧ nq ≤ j then denseGet brn br (i - nq) (j - nq)
  else if nq ≤ j then tr.rd i.toNat (j - nq).toNat
  else bl.rd (i - nq).toNat j.toNat

/-- `adjust_indices` for one index (splines_linear_problem_3x3_blocks.cpp lines 31-47). -/
def adjust (top nq i : U64) : U64 :=
  if i < top then i + nq else if i < top + nq then i - top else i

/-- `get_element` (virtual; splines_linear_problem_3x3_blocks.cpp lines 49-54 for the last case). -/
def get : LinProb K → U64 → U64 → Res K
  | dense n a, i, j => denseGet n a i j
  | band n kl ku q, i, j => bandGet n kl ku q i j
  | pdsBand n ext q, i, j => symGet n ext q i j
  | pdsTridiag n q, i, j => symGet n 2 q i j
  | blocks2 n tl tr bl brn br, i, j => get2 n tl.size (get tl) tr bl brn br i j
  | blocks3 n top tl tr bl brn br, i, j =>
    get2 n tl.size (get tl) tr bl brn br (adjust top tl.size i) (adjust top tl.size j)

/-- `SplinesLinearProblem2x2Blocks::set_element` (splines_linear_problem_2x2_blocks.cpp lines 125-144);
`mk` puts the updated blocks back in the object. -/
def set2 (n : U64) (tl : LinProb K) (tlSet : U64 → U64 → K → Res (LinProb K)) (tr bl : Mat K) (brn : U64)
    (br : Mat K) (mk : LinProb K → Mat K → Mat K → Mat K → LinProb K) (i j : U64) (v : K) :
    Res (LinProb K) := do
  Res.guardAbort (decide (i < n))
  Res.guardAbort (decide (j < n))
  let nq := tl.size
  if i < nq ∧ j < nq then do
    let tl ← tlSet i j v
    .ok (mk tl tr bl br)
  else if nq ≤ i ∧ nq ≤ j then do
    let br ← denseSet brn br (i - nq) (j - nq) v
    .ok (mk tl tr bl br)
  else if nq ≤ j then do
    let tr ← tr.wr i.toNat (j - nq).toNat v
    .ok (mk tl tr bl br)
  else do
    let bl ← bl.wr (i - nq).toNat j.toNat v
    .ok (mk tl tr bl br)

/-- `set_element` (virtual; splines_linear_problem_3x3_blocks.cpp lines 56-64 for the last case). -/
def set : LinProb K → U64 → U64 → K → Res (LinProb K)
  | dense n a, i, j, v => do .ok (dense n (← denseSet n a i j v))
  | band n kl ku q, i, j, v => do .ok (band n kl ku (← bandSet n kl ku q i j v))
  | pdsBand n ext q, i, j, v => do .ok (pdsBand n ext (← symSet n ext q i j v))
  | pdsTridiag n q, i, j, v => do .ok (pdsTridiag n (← symSet n 2 q i j v))
  | blocks2 n tl tr bl brn br, i, j, v =>
    set2 n tl (set tl) tr bl brn br (fun tl tr bl br => blocks2 n tl tr bl brn br) i j v
  | blocks3 n top tl tr bl brn br, i, j, v =>
    set2 n tl (set tl) tr bl brn br (fun tl tr bl br => blocks3 n top tl tr bl brn br)
      (adjust top tl.size i) (adjust top tl.size j) v

end LinProb

/-! ## The factory: splines_linear_problem_maker.hpp -/

/-- Arithmetic on `int`: overflow is undefined behaviour. -/
def intRes (z : Int) : Res Int := if -2 ^ 31 ≤ z ∧ z < 2 ^ 31 then .ok z else .ub

/-- `make_new_band` (splines_linear_problem_maker.hpp lines 56-76). -/
def makeBand (n kl ku : Int) (pds : Bool) : Res (LinProb K) :=
  if kl = ku ∧ kl = 1 ∧ pds then .ok (LinProb.mkPdsTridiag (BitVec.ofInt 64 n))
  else if kl = ku ∧ pds then LinProb.mkPdsBand (BitVec.ofInt 64 n) (BitVec.ofInt 64 kl)
  else do
    let a ← intRes (2 * kl)
    let a ← intRes (a + ku)
    let a ← intRes (a + 1)
    if n ≤ a then .ok (LinProb.mkDense (BitVec.ofInt 64 n))
    else LinProb.mkBand (BitVec.ofInt 64 n) (BitVec.ofInt 64 kl) (BitVec.ofInt 64 ku)

/-- `make_new_block_matrix_with_band_main_block` (splines_linear_problem_maker.hpp lines 92-111). -/
def makeBlocks (n kl ku : Int) (pds : Bool) (bottom top : Int) : Res (LinProb K) := do
  let m ← intRes (n - top)
  let m ← intRes (m - bottom)
  let main ← makeBand m kl ku pds
  if top = 0 then LinProb.mkBlocks2 (BitVec.ofInt 64 n) main
  else LinProb.mkBlocks3 (BitVec.ofInt 64 n) (BitVec.ofInt 64 top) main

/-- The size test of `make_new_periodic_band_matrix` (splines_linear_problem_maker.hpp line 141). -/
def periodicUsesDense (n kl ku bottom top : Int) : Res Bool := do
  let s ← intRes (n + top)
  let x ← intRes (bottom * s)
  let w ← intRes (2 * kl)
  let w ← intRes (w + ku)
  let w ← intRes (w + 1)
  let y ← intRes (w * top)
  let z ← intRes (x + y)
  let nn ← intRes (n * n)
  .ok (decide (nn ≤ z))

/-- `make_new_periodic_band_matrix` (splines_linear_problem_maker.hpp lines 129-146). -/
def makePeriodic (n kl ku : Int) (pds : Bool) : Res (LinProb K) := do
  Res.guardAbort (decide (kl < n))
  Res.guardAbort (decide (ku < n))
  let bottom := if kl < ku then ku else kl
  let top ← intRes (n - bottom)
  if ← periodicUsesDense n kl ku bottom top then .ok (LinProb.mkDense (BitVec.ofInt 64 n))
  else makeBlocks n kl ku pds bottom 0

/-! ## Solvers -/

/-- A sparse matrix in coordinate format (splines_linear_problem_2x2_blocks.cpp lines 18-73). -/
structure Coo (K : Type) where
  nrows : Nat
  ncols : Nat
  entries : List (Nat × Nat × K)

/-- `dense2coo` (splines_linear_problem_2x2_blocks.cpp lines 146-190): the entries of absolute value at
least `tol`, row after row.  The three arrays of size `nrows * ncols` are one list. -/
def dense2coo (a : Mat K) : Coo K :=
  ⟨a.rows, a.cols, (List.range a.rows).flatMap fun i => (List.range a.cols).filterMap fun j =>
    if cooTol ≤ |a.val i j| then some (i, j, a.val i j) else none⟩

/-- The matrix read by `dgetrf` in row-major order. -/
def lapackDense (a : Mat K) (i j : Nat) : K := a.val i j

/-- The matrix read by `dgbtrf`: `AB(kl+ku+1+i-j, j) = A(i, j)` for `max(1, j-ku) <= i <= min(n, j+kl)`
(1-based indices, documentation of LAPACK). -/
def lapackBand (kl ku : Nat) (q : Mat K) (i j : Nat) : K :=
  if j ≤ i + ku ∧ i ≤ j + kl then q.val (kl + ku + i - j) j else 0

/-- The matrix read by `dpbtrf` with `uplo = 'L'`: `AB(1+i-j, j) = A(i, j)` for `j <= i <= min(n, j+kd)`
and symmetry (1-based indices, documentation of LAPACK). -/
def lapackSymBand (kd : Nat) (q : Mat K) (i j : Nat) : K :=
  if j ≤ i then (if i ≤ j + kd then q.val (i - j) j else 0)
  else if j ≤ i + kd then q.val (j - i) i else 0

/-- The matrix read by `dpttrf`: `d` are the diagonal elements, `e` the subdiagonal ones, and symmetry
(documentation of LAPACK). -/
def lapackTridiag (d e : Nat → K) (i j : Nat) : K :=
  if i = j then d i else if i = j + 1 then e j else if j = i + 1 then e i else 0

/-- A linear problem after `setup_solver`. -/
inductive Solver (K : Type) where
  | getrs (n : Nat) (A : Nat → Nat → K)
  | gbtrs (n : Nat) (A : Nat → Nat → K)
  | pbtrs (n : Nat) (A : Nat → Nat → K)
  | pttrs (n : Nat) (A : Nat → Nat → K)
  | blocks2 (n : Nat) (tl : Solver K) (tr bl : Coo K) (brn : Nat) (br : Nat → Nat → K)
  | blocks3 (n top : Nat) (tl : Solver K) (tr bl : Coo K) (brn : Nat) (br : Nat → Nat → K)

/-- `size` -/
def Solver.size : Solver K → Nat
  | getrs n _ => n
  | gbtrs n _ => n
  | pbtrs n _ => n
  | pttrs n _ => n
  | blocks2 n _ _ _ _ _ => n
  | blocks3 n _ _ _ _ _ _ => n

/-- The body of a parallel loop over the right-hand sides: column `j` of the rows `off … off + n - 1` is
replaced by the solution computed from it. -/
def solveCol (f : (Nat → K) → Nat → K) (n off : Nat) (b : Mat K) (j : Nat) : Res (Mat K) :=
  if off + n ≤ b.rows ∧ j < b.cols then
    .ok ⟨b.rows, b.cols, fun r c =>
      if c = j ∧ off ≤ r ∧ r < off + n then f (fun i => b.val (off + i) j) (r - off) else b.val r c⟩
  else .ub

/-- A parallel loop over the right-hand sides. -/
def solveCols (f : (Nat → K) → Nat → K) (n off : Nat) (σ : Sched) (b : Mat K) : Res (Mat K) :=
  (σ.cols b.cols).foldlM (solveCol f n off) b

/-- `SplinesLinearProblemDense::solve` (splines_linear_problem_dense.cpp lines 92-130); the view is the
`len` rows of `b` from row `off`. -/
def denseSolve (L : Lapack K) (σ : Sched) (n : Nat) (A : Nat → Nat → K) (transpose : Bool) (len off : Nat)
    (b : Mat K) : Res (Mat K) := do
  Res.guardAbort (decide (len = n))
  if n = 0 then .ok b else solveCols (L.solve transpose n A) n off σ b

/-- One non-zero of `spdm_minus1_1`: `y(i, j) -= v * x(k, j)`
(splines_linear_problem_2x2_blocks.cpp lines 254-258, 265-269). -/
def spdmEntry (xoff xlen yoff ylen j : Nat) (transpose : Bool) (b : Mat K) (e : Nat × Nat × K) :
    Res (Mat K) := do
  let (i, k, v) := e
  let (i, k) := if transpose then (k, i) else (i, k)
  if i < ylen ∧ k < xlen then do
    let y ← b.rd (yoff + i) j
    let x ← b.rd (xoff + k) j
    b.wr (yoff + i) j (y - v * x)
  else .ub

/-- `spdm_minus1_1` (splines_linear_problem_2x2_blocks.cpp lines 236-272); `x` and `y` are ranges of rows
of the same memory. -/
def spdm (σ : Sched) (op : Coo K) (xoff xlen yoff ylen : Nat) (transpose : Bool) (b : Mat K) :
    Res (Mat K) := do
  Res.guardAbort (decide (if transpose then op.ncols = ylen else op.nrows = ylen))
  Res.guardAbort (decide (if transpose then op.nrows = xlen else op.ncols = xlen))
  (σ.cols b.cols).foldlM
    (fun b j => op.entries.foldlM (spdmEntry xoff xlen yoff ylen j transpose) b) b

/-- `SplinesLinearProblem2x2Blocks::solve` (splines_linear_problem_2x2_blocks.cpp lines 274-298) on the
`len` rows from row `off`; `nq` and `tlSolve` are the size and the solver of the top-left block. -/
def solve2 (L : Lapack K) (σ : Sched) (n nq : Nat) (tlSolve : Bool → Nat → Nat → Mat K → Res (Mat K))
    (tr bl : Coo K) (brn : Nat) (br : Nat → Nat → K) (transpose : Bool) (len off : Nat) (b : Mat K) :
    Res (Mat K) := do
  Res.guardAbort (decide (len = n))
  if len < nq then .ub
  else if !transpose then do
    let b ← tlSolve false nq off b
    let b ← spdm σ bl off nq (off + nq) (len - nq) false b
    let b ← denseSolve L σ brn br false (len - nq) (off + nq) b
    spdm σ tr (off + nq) (len - nq) off nq false b
  else do
    let b ← spdm σ tr off nq (off + nq) (len - nq) true b
    let b ← denseSolve L σ brn br true (len - nq) (off + nq) b
    let b ← spdm σ bl (off + nq) (len - nq) off nq true b
    tlSolve true nq off b

/-- `Kokkos::deep_copy(b[dst …], b[src …])` between two views of `len` rows of the same memory: undefined
behaviour if they overlap or are outside of the memory. -/
def copyRows (dst src len : Nat) (b : Mat K) : Res (Mat K) :=
  if len = 0 ∨ ((dst + len ≤ src ∨ src + len ≤ dst) ∧ dst + len ≤ b.rows ∧ src + len ≤ b.rows) then
    .ok ⟨b.rows, b.cols, fun r c => if dst ≤ r ∧ r < dst + len then b.val (src + (r - dst)) c else b.val r c⟩
  else .ub

/-- Copies through a buffer: the views may overlap. -/
def copyRowsBuffered (dst src len : Nat) (b : Mat K) : Res (Mat K) :=
  if dst + len ≤ b.rows ∧ src + len ≤ b.rows then
    let buffer := fun i c => b.val (src + i) c
    .ok ⟨b.rows, b.cols, fun r c => if dst ≤ r ∧ r < dst + len then buffer (r - dst) c else b.val r c⟩
  else .ub

/-- `interchange_rows_from_3_to_2_blocks_rhs` (splines_linear_problem_3x3_blocks.cpp lines 66-96). -/
def interchange3to2 (n top nq off : Nat) (b : Mat K) : Res (Mat K) := do
  let bottom := n - (top + nq)
  let b ←
    if top < bottom then copyRowsBuffered (off + (2 * top + nq)) (off + (top + nq)) bottom b
    else copyRows (off + (2 * top + nq)) (off + (top + nq)) bottom b
  copyRows (off + (top + nq)) off top b

/-- `interchange_rows_from_2_to_3_blocks_rhs` (splines_linear_problem_3x3_blocks.cpp lines 98-128). -/
def interchange2to3 (n top nq off : Nat) (b : Mat K) : Res (Mat K) := do
  let bottom := n - (top + nq)
  let b ← copyRows off (off + (top + nq)) top b
  if top < bottom then copyRowsBuffered (off + (top + nq)) (off + (2 * top + nq)) bottom b
  else copyRows (off + (top + nq)) (off + (2 * top + nq)) bottom b

/-- `solve` (virtual): the `len` rows of `b` from row `off`. -/
def Solver.solve (L : Lapack K) (σ : Sched) : Solver K → Bool → Nat → Nat → Mat K → Res (Mat K)
  /- splines_linear_problem_dense.cpp lines 92-130 -/
  | getrs n A, transpose, len, off, b => denseSolve L σ n A transpose len off b
  /- splines_linear_problem_band.cpp lines 137-170 -/
  | gbtrs n A, transpose, len, off, b => do
    Res.guardAbort (decide (len = n))
    solveCols (L.solve transpose n A) n off σ b
  /- splines_linear_problem_pds_band.cpp lines 104-120: `transpose` is ignored -/
  | pbtrs n A, _, len, off, b => do
    Res.guardAbort (decide (len = n))
    solveCols (L.solve false n A) n off σ b
  /- splines_linear_problem_pds_tridiag.cpp lines 96-113: `transpose` is ignored; the subview of the
  subdiagonal has `n - 1` elements -/
  | pttrs n A, _, len, off, b => do
    Res.guardAbort (decide (len = n))
    if n = 0 then .ub else solveCols (L.solve false n A) n off σ b
  | blocks2 n tl tr bl brn br, transpose, len, off, b =>
    solve2 L σ n tl.size (Solver.solve L σ tl) tr bl brn br transpose len off b
  /- splines_linear_problem_3x3_blocks.cpp lines 130-145 -/
  | blocks3 n top tl tr bl brn br, transpose, len, off, b => do
    Res.guardAbort (decide (len = n + top))
    let b ← interchange3to2 n top tl.size off b
    let b ← solve2 L σ n tl.size (Solver.solve L σ tl) tr bl brn br transpose n (off + top) b
    interchange2to3 n top tl.size off b

/-- One entry of `compute_schur_complement` (splines_linear_problem_2x2_blocks.cpp lines 202-209). -/
def schurEntry (nq : Nat) (bl tr : Mat K) (brn : U64) (br : Mat K) (ij : Nat × Nat) : Res (Mat K) := do
  let (i, j) := ij
  let val ← forLoop (fun l val => do
    let x ← bl.rd i l
    let y ← tr.rd l j
    .ok (val + x * y)) 0 nq (0 : K)
  let x ← denseGet brn br (BitVec.ofNat 64 i) (BitVec.ofNat 64 j)
  denseSet brn br (BitVec.ofNat 64 i) (BitVec.ofNat 64 j) (x - val)

/-- `compute_schur_complement` (splines_linear_problem_2x2_blocks.cpp lines 192-210). -/
def schur (σ : Sched) (nq : Nat) (bl tr : Mat K) (brn : U64) (br : Mat K) : Res (Mat K) :=
  (σ.pairs brn.toNat).foldlM (schurEntry nq bl tr brn) br

/-- `SplinesLinearProblemDense::setup_solver` (splines_linear_problem_dense.cpp lines 66-90). -/
def denseSetup (L : Lapack K) (n : U64) (a : Mat K) : Res (Nat → Nat → K) :=
  if L.regular n.toNat (lapackDense a) then .ok (lapackDense a) else .throw

/-- `SplinesLinearProblem2x2Blocks::setup_solver` (splines_linear_problem_2x2_blocks.cpp lines 212-234);
`S` is the top-left block after its own `setup_solver`. -/
def setup2 (L : Lapack K) (σ : Sched) (nq : U64) (S : Solver K) (tr bl : Mat K) (brn : U64) (br : Mat K) :
    Res (Coo K × Coo K × (Nat → Nat → K)) := do
  let tr ← S.solve L σ false tr.rows 0 tr
  let trCoo := dense2coo tr
  let blCoo := dense2coo bl
  let br ← schur σ nq.toNat bl tr brn br
  let A ← denseSetup L brn br
  .ok (trCoo, blCoo, A)

/-- `setup_solver` (virtual). -/
def LinProb.setup (L : Lapack K) (σ : Sched) : LinProb K → Res (Solver K)
  | dense n a => do
    let A ← denseSetup L n a
    .ok (.getrs n.toNat A)
  /- splines_linear_problem_band.cpp lines 108-135 -/
  | band n kl ku q =>
    if L.regular n.toNat (lapackBand kl.toNat ku.toNat q) then
      .ok (.gbtrs n.toNat (lapackBand kl.toNat ku.toNat q))
    else .throw
  /- splines_linear_problem_pds_band.cpp lines 83-102 -/
  | pdsBand n ext q =>
    if L.posDef n.toNat (lapackSymBand (ext - 1).toNat q) then
      .ok (.pbtrs n.toNat (lapackSymBand (ext - 1).toNat q))
    else .throw
  /- splines_linear_problem_pds_tridiag.cpp lines 80-94 -/
  | pdsTridiag n q =>
    if L.posDef n.toNat (lapackTridiag (q.val 0) (q.val 1)) then
      .ok (.pttrs n.toNat (lapackTridiag (q.val 0) (q.val 1)))
    else .throw
  | blocks2 n tl tr bl brn br => do
    let S ← LinProb.setup L σ tl
    let (t, b, A) ← setup2 L σ tl.size S tr bl brn br
    .ok (.blocks2 n.toNat S t b brn.toNat A)
  | blocks3 n top tl tr bl brn br => do
    let S ← LinProb.setup L σ tl
    let (t, b, A) ← setup2 L σ tl.size S tr bl brn br
    .ok (.blocks3 n.toNat top.toNat S t b brn.toNat A)

end Storage

/-! ## The sparse problem: splines_linear_problem_sparse.cpp -/

/-- The external iterative solver: `apply transpose n A ncols B` is the chunk of solutions, `none` if
it did not converge. -/
structure Ginkgo (K : Type) where
  apply : Bool → Nat → (Nat → Nat → K) → Nat → (Nat → Nat → K) → Option (Nat → Nat → K)

section Sparse

variable {K : Type} [Field K]

/-- `main_chunk_size` (splines_linear_problem_sparse.cpp line 233). -/
def mainChunk (colsPerChunk ncols : U64) : U64 := if ncols < colsPerChunk then ncols else colsPerChunk

/-- `iend` (splines_linear_problem_sparse.cpp line 238); a division by zero is undefined behaviour. -/
def chunkCount (colsPerChunk ncols : U64) : Res U64 :=
  let m := mainChunk colsPerChunk ncols
  if m = 0 then .ub else .ok ((ncols + m - 1) / m)

/-- `subview_begin` and `subview_end` (splines_linear_problem_sparse.cpp lines 240-242). -/
def chunkRange (colsPerChunk ncols iend i : U64) : U64 × U64 :=
  let m := mainChunk colsPerChunk ncols
  let b := i * m
  (b, if i + 1 = iend then ncols else b + m)

/-- One chunk (splines_linear_problem_sparse.cpp lines 239-278).  `b_buffer` and `x` have `m` columns;
the initial guess in `x` does not matter. -/
def sparseStep (G : Ginkgo K) (transpose : Bool) (n : Nat) (A : Nat → Nat → K) (colsPerChunk iend : U64)
    (off : Nat) (i : Nat) (b : Mat K) : Res (Mat K) :=
  let m := mainChunk colsPerChunk (BitVec.ofNat 64 b.cols)
  let r := chunkRange colsPerChunk (BitVec.ofNat 64 b.cols) iend (BitVec.ofNat 64 i)
  let lo := r.1.toNat
  let w := (r.2 - r.1).toNat
  if r.1 ≤ r.2 ∧ r.2.toNat ≤ b.cols ∧ w ≤ m.toNat ∧ off + n ≤ b.rows then
    match G.apply transpose n A w (fun k c => b.val (off + k) (lo + c)) with
    | none => .throw
    | some x => .ok ⟨b.rows, b.cols, fun r c =>
        if off ≤ r ∧ r < off + n ∧ lo ≤ c ∧ c < lo + w then x (r - off) (c - lo) else b.val r c⟩
  else .ub

/-- `solve` (splines_linear_problem_sparse.cpp lines 226-279). -/
def sparseSolve (G : Ginkgo K) (n : Nat) (A : Nat → Nat → K) (colsPerChunk : U64) (transpose : Bool)
    (len off : Nat) (b : Mat K) : Res (Mat K) := do
  Res.guardAbort (decide (len = n))
  let iend ← chunkCount colsPerChunk (BitVec.ofNat 64 b.cols)
  forLoop (sparseStep G transpose n A colsPerChunk iend off) 0 iend.toNat b

end Sparse

end DDC
