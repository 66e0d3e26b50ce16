import Verif.Model.Linear
import Mathlib.Algebra.Field.Rat
import Mathlib.Algebra.Order.Ring.Rat

/-!
# Linear problems of the splines, with rounding

The computations that `setup_solver` and `solve` of the block matrices make themselves, with every floating-point
operation followed by a rounding `fl` (see `Model/Rounded.lean`): the products with matrices in coordinate format and the
Schur complement (without rounding: `Model/Linear.lean`).  The external solvers are the parameter `Lapack`; the storages,
the copies of rows and the loops over the right-hand sides do not compute and are those of `Model/Linear.lean`.
-/

namespace DDC.Rounded

variable (fl : Rat → Rat)

/-- `dense2coo` (splines_linear_problem_2x2_blocks.cpp lines 146-190); the tolerance is the `double` of the literal
`1e-14`. -/
def dense2coo (a : Mat Rat) : Coo Rat :=
  ⟨a.rows, a.cols, (List.range a.rows).flatMap fun i => (List.range a.cols).filterMap fun j =>
    if fl cooTol ≤ |a.val i j| then some (i, j, a.val i j) else none⟩

/-- One non-zero of `spdm_minus1_1`: `y(i, j) -= v * x(k, j)`
(splines_linear_problem_2x2_blocks.cpp lines 254-258, 265-269). -/
def spdmEntry (xoff xlen yoff ylen j : Nat) (transpose : Bool) (b : Mat Rat) (e : Nat × Nat × Rat) :
    Res (Mat Rat) := do
  let (i, k, v) := e
  let (i, k) := if transpose then (k, i) else (i, k)
  if i < ylen ∧ k < xlen then do
    let y ← b.rd (yoff + i) j
    let x ← b.rd (xoff + k) j
    b.wr (yoff + i) j (fl (y - fl (v * x)))
  else .ub

/-- `spdm_minus1_1` (splines_linear_problem_2x2_blocks.cpp lines 236-272); `x` and `y` are ranges of rows
of the same memory. -/
def spdm (σ : Sched) (op : Coo Rat) (xoff xlen yoff ylen : Nat) (transpose : Bool) (b : Mat Rat) :
    Res (Mat Rat) := do
  Res.guardAbort (decide (if transpose then op.ncols = ylen else op.nrows = ylen))
  Res.guardAbort (decide (if transpose then op.nrows = xlen else op.ncols = xlen))
  (σ.cols b.cols).foldlM
    (fun b j => op.entries.foldlM (spdmEntry fl xoff xlen yoff ylen j transpose) b) b

/-- `SplinesLinearProblem2x2Blocks::solve` (splines_linear_problem_2x2_blocks.cpp lines 274-298) on the
`len` rows from row `off`; `nq` and `tlSolve` are the size and the solver of the top-left block. -/
def solve2 (L : Lapack Rat) (σ : Sched) (n nq : Nat) (tlSolve : Bool → Nat → Nat → Mat Rat → Res (Mat Rat))
    (tr bl : Coo Rat) (brn : Nat) (br : Nat → Nat → Rat) (transpose : Bool) (len off : Nat) (b : Mat Rat) :
    Res (Mat Rat) := do
  Res.guardAbort (decide (len = n))
  if len < nq then .ub
  else if !transpose then do
    let b ← tlSolve false nq off b
    let b ← spdm fl σ bl off nq (off + nq) (len - nq) false b
    let b ← denseSolve L σ brn br false (len - nq) (off + nq) b
    spdm fl σ tr (off + nq) (len - nq) off nq false b
  else do
    let b ← spdm fl σ tr off nq (off + nq) (len - nq) true b
    let b ← denseSolve L σ brn br true (len - nq) (off + nq) b
    let b ← spdm fl σ bl (off + nq) (len - nq) off nq true b
    tlSolve true nq off b

/-- `solve` (virtual): the `len` rows of `b` from row `off`.  Lines as in `Solver.solve` of `Model/Linear.lean`; the
problems that are not made of blocks only call the external solvers. -/
def solve (L : Lapack Rat) (σ : Sched) : Solver Rat → Bool → Nat → Nat → Mat Rat → Res (Mat Rat)
  | .blocks2 n tl tr bl brn br, transpose, len, off, b =>
    solve2 fl L σ n tl.size (solve L σ tl) tr bl brn br transpose len off b
  | .blocks3 n top tl tr bl brn br, transpose, len, off, b => do
    Res.guardAbort (decide (len = n + top))
    let b ← interchange3to2 n top tl.size off b
    let b ← solve2 fl L σ n tl.size (solve L σ tl) tr bl brn br transpose n (off + top) b
    interchange2to3 n top tl.size off b
  | .getrs n A, transpose, len, off, b => (Solver.getrs n A).solve L σ transpose len off b
  | .gbtrs n A, transpose, len, off, b => (Solver.gbtrs n A).solve L σ transpose len off b
  | .pbtrs n A, transpose, len, off, b => (Solver.pbtrs n A).solve L σ transpose len off b
  | .pttrs n A, transpose, len, off, b => (Solver.pttrs n A).solve L σ transpose len off b

/-- One entry of `compute_schur_complement` (splines_linear_problem_2x2_blocks.cpp lines 202-209). -/
def schurEntry (nq : Nat) (bl tr : Mat Rat) (brn : U64) (br : Mat Rat) (ij : Nat × Nat) : Res (Mat Rat) := do
  let (i, j) := ij
  let val ← forLoop (fun l val => do
    let x ← bl.rd i l
    let y ← tr.rd l j
    .ok (fl (val + fl (x * y)))) 0 nq (0 : Rat)
  let x ← denseGet brn br (BitVec.ofNat 64 i) (BitVec.ofNat 64 j)
  denseSet brn br (BitVec.ofNat 64 i) (BitVec.ofNat 64 j) (fl (x - val))

/-- `compute_schur_complement` (splines_linear_problem_2x2_blocks.cpp lines 192-210). -/
def schur (σ : Sched) (nq : Nat) (bl tr : Mat Rat) (brn : U64) (br : Mat Rat) : Res (Mat Rat) :=
  (σ.pairs brn.toNat).foldlM (schurEntry fl nq bl tr brn) br

/-- `SplinesLinearProblem2x2Blocks::setup_solver` (splines_linear_problem_2x2_blocks.cpp lines 212-234);
`S` is the top-left block after its own `setup_solver`. -/
def setup2 (L : Lapack Rat) (σ : Sched) (nq : U64) (S : Solver Rat) (tr bl : Mat Rat) (brn : U64) (br : Mat Rat) :
    Res (Coo Rat × Coo Rat × (Nat → Nat → Rat)) := do
  let tr ← solve fl L σ S false tr.rows 0 tr
  let trCoo := dense2coo fl tr
  let blCoo := dense2coo fl bl
  let br ← schur fl σ nq.toNat bl tr brn br
  let A ← denseSetup L brn br
  .ok (trCoo, blCoo, A)

/-- `setup_solver` (virtual).  Lines as in `LinProb.setup` of `Model/Linear.lean`. -/
def setup (L : Lapack Rat) (σ : Sched) : LinProb Rat → Res (Solver Rat)
  | .blocks2 n tl tr bl brn br => do
    let S ← setup L σ tl
    let (t, b, A) ← setup2 fl L σ tl.size S tr bl brn br
    .ok (.blocks2 n.toNat S t b brn.toNat A)
  | .blocks3 n top tl tr bl brn br => do
    let S ← setup L σ tl
    let (t, b, A) ← setup2 fl L σ tl.size S tr bl brn br
    .ok (.blocks3 n.toNat top.toNat S t b brn.toNat A)
  | .dense n a => (LinProb.dense n a).setup L σ
  | .band n kl ku q => (LinProb.band n kl ku q).setup L σ
  | .pdsBand n ext q => (LinProb.pdsBand n ext q).setup L σ
  | .pdsTridiag n q => (LinProb.pdsTridiag n q).setup L σ

end DDC.Rounded
