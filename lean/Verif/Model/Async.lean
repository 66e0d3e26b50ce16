import Verif.Model.Points

/-!
# Asynchronous execution

Kernels are launched, not called: `Kokkos::parallel_for` and `Kokkos::deep_copy` with an execution space return before
the kernel has run, and the host goes on.  This file models a host thread that runs a list of commands next to the
instances of the execution spaces, each of which runs the kernels launched on it in order, and gives the commands of the
functions of DDC that launch several kernels or own a temporary.

Simplifications.
* Only the buffers (allocations) that a kernel reads and writes are kept, not the elements: two kernels that write
  different parts of one buffer count as conflicting.
* A kernel runs at once; a kernel and a host access, or two kernels on different instances, that touch the same buffer
  with nothing that orders them are a data race, which is undefined behaviour.
* `Kokkos::deep_copy` without an execution space waits for all kernels before and after the copy, `DualView::sync_host`
  and `DualView::sync_device` are such copies (the host and the device copies are different buffers), and the
  construction of a `Kokkos::View` that initialises its elements waits for the initialisation (contracts of Kokkos).
* The executor that Ginkgo gets from `gko::ext::kokkos::create_executor(ExecSpace())` runs on the default instance.
-/

namespace DDC.Async

/-- A functor with the buffers that it reads and writes.  `line` is the line of the source file that launches it and
`iter` the iteration of the enclosing loop; the two only serve to tell functors apart. -/
structure Kernel where
  line : Nat
  reads : List Nat
  writes : List Nat
  iter : Nat := 0
  deriving DecidableEq, Repr

/-- The buffers of a kernel. -/
def Kernel.touches (k : Kernel) : List Nat := k.reads ++ k.writes

/-- The two kernels touch a common buffer that one of them writes. -/
def Kernel.conflicts (k l : Kernel) : Bool :=
  k.writes.any (fun b => decide (b ∈ l.touches)) || l.writes.any (fun b => decide (b ∈ k.touches))

/-- What the host thread does.
* `launch i k`: `Kokkos::parallel_for` or `Kokkos::deep_copy` on the instance `i`;
* `fence`: `Kokkos::fence()`; `fenceOn i`: `i.fence()`;
* `host k`: the host itself reads and writes;
* `alloc b`, `free b`: `Kokkos::kokkos_malloc`, `Kokkos::kokkos_free` (kokkos_allocator.hpp lines 55-68), or the
  construction and the destruction of the last `Kokkos::View` of an allocation. -/
inductive Cmd where
  | launch (inst : Nat) (k : Kernel)
  | fence
  | fenceOn (inst : Nat)
  | host (k : Kernel)
  | alloc (b : Nat)
  | free (b : Nat)
  deriving DecidableEq, Repr

/-- Does the release of an allocation wait for the kernels? -/
structure Config where
  freeWaits : Bool

variable {V : Type}

/-- The contents of the live buffers. -/
abbrev Mem (V : Type) := Nat → Option V

/-- What the functors compute and what an allocation contains at first: any functions. -/
structure World (V : Type) where
  effect : Kernel → Mem V → Nat → V
  fresh : Nat → V

/-- A kernel runs: it sees its own buffers only, and a dead buffer is undefined behaviour. -/
def Kernel.run (W : World V) (k : Kernel) (m : Mem V) : Res (Mem V) :=
  if k.touches.all (fun b => (m b).isSome) then
    .ok fun b => if b ∈ k.writes then some (W.effect k (fun c => if c ∈ k.touches then m c else none) b) else m b
  else .ub

/-- The state: the buffers, the kernels that are launched and have not run, in the order of their launches, and the
commands that the host still has to do. -/
structure State (V : Type) where
  mem : Mem V
  pending : List (Nat × Kernel)
  prog : List Cmd

/-- Who moves next: the host thread or an instance. -/
inductive Who where
  | host
  | device (inst : Nat)
  deriving DecidableEq, Repr

/-- The first kernel of the instance, and the others. -/
def popFirst (i : Nat) : List (Nat × Kernel) → Option (Kernel × List (Nat × Kernel))
  | [] => none
  | e :: P => if e.1 = i then some (e.2, P) else (popFirst i P).map fun r => (r.1, e :: r.2)

/-- The memory with `o` for the buffer `b`. -/
def Mem.set (m : Mem V) (b : Nat) (o : Option V) : Mem V := fun c => if c = b then o else m c

/-- One move.  A move that has to wait changes nothing. -/
def State.step (cfg : Config) (W : World V) (s : State V) : Who → Res (State V)
  | .device i =>
    match popFirst i s.pending with
    | none => .ok s
    | some (k, P) => do
      let m ← k.run W s.mem
      .ok { s with mem := m, pending := P }
  | .host =>
    match s.prog with
    | [] => .ok s
    | .launch i k :: p =>
      if s.pending.any (fun e => e.1 != i && e.2.conflicts k) then .ub
      else .ok { s with pending := s.pending ++ [(i, k)], prog := p }
    | .fence :: p => if s.pending.isEmpty then .ok { s with prog := p } else .ok s
    | .fenceOn i :: p => if s.pending.any (fun e => e.1 == i) then .ok s else .ok { s with prog := p }
    | .host k :: p =>
      if s.pending.any (fun e => e.2.conflicts k) then .ub
      else do
        let m ← k.run W s.mem
        .ok { s with mem := m, prog := p }
    | .alloc b :: p =>
      match s.mem b with
      | some _ => .ub
      | none => .ok { s with mem := s.mem.set b (some (W.fresh b)), prog := p }
    | .free b :: p =>
      if cfg.freeWaits && !s.pending.isEmpty then .ok s
      else if s.pending.any (fun e => decide (b ∈ e.2.touches)) then .ub
      else match s.mem b with
        | none => .ub
        | some _ => .ok { s with mem := s.mem.set b none, prog := p }

/-- The moves of a schedule. -/
def State.exec (cfg : Config) (W : World V) (s : State V) : List Who → Res (State V)
  | [] => .ok s
  | w :: ws => do
    let s' ← s.step cfg W w
    s'.exec cfg W ws

/-! ## The functions -/

/-- `Kokkos::deep_copy(dst, src)` without an execution space. -/
def deepCopy (line dst src : Nat) (iter : Nat := 0) : List Cmd :=
  [.fence, .launch 0 ⟨line, [src], [dst], iter⟩, .fence]

/-- The construction of a `Kokkos::View` that initialises its elements. -/
def newView (line b : Nat) : List Cmd :=
  [.alloc b, .launch 0 ⟨line, [], [b], 0⟩, .fence]

/-- The linear problems, with the buffers of their matrices on the device.
* `direct line mats`: `SplinesLinearProblemBand`, `PDSBand`, `PDSTridiag` and `Dense` (not empty);
* `skip`: `SplinesLinearProblemDense` of size 0;
* `blocks2 tl br tr bl`: `SplinesLinearProblem2x2Blocks` with the two diagonal blocks, and the sparse top-right and
  bottom-left blocks;
* `blocks3 inner buffered buffer`: `SplinesLinearProblem3x3Blocks` over the 2x2 blocks `inner`; `buffered`: the bottom
  block is larger than the top block;
* `sparse mats bbuf x chunks`: `SplinesLinearProblemSparse` that solves in `chunks` chunks. -/
inductive Solver where
  | direct (line : Nat) (mats : List Nat)
  | skip
  | blocks2 (topLeft bottomRight : Solver) (topRight bottomLeft : List Nat)
  | blocks3 (inner : Solver) (buffered : Bool) (buffer : Nat)
  | sparse (mats : List Nat) (bbuf x chunks : Nat)

/-- `solve(b, transpose)` on the buffer `b`.
* `direct`: one kernel (splines_linear_problem_band.cpp lines 138-170, pds_band.cpp 105-120, pds_tridiag.cpp 97-113,
  dense.cpp 93-130);
* `blocks2` (splines_linear_problem_2x2_blocks.cpp lines 237-298): `b1` and `b2` are parts of `b`;
* `blocks3` (splines_linear_problem_3x3_blocks.cpp lines 67-145);
* `sparse` (splines_linear_problem_sparse.cpp lines 226-279); a simplification: `apply` converges. -/
def Solver.solve (transpose : Bool) (b : Nat) : Solver → List Cmd
  | .direct line mats => [.launch 0 ⟨line, mats, [b], 0⟩]
  | .skip => []
  | .blocks2 topLeft bottomRight topRight bottomLeft =>
    if transpose then
      [.launch 0 ⟨261, topRight, [b], 0⟩] ++ bottomRight.solve transpose b ++
        [.launch 0 ⟨261, bottomLeft, [b], 1⟩] ++ topLeft.solve transpose b
    else
      topLeft.solve transpose b ++ [.launch 0 ⟨250, bottomLeft, [b], 0⟩] ++ bottomRight.solve transpose b ++
        [.launch 0 ⟨250, topRight, [b], 1⟩]
  | .blocks3 inner buffered buffer =>
    (if buffered then newView 88 buffer ++ deepCopy 90 buffer b ++ deepCopy 91 b buffer ++ [.free buffer]
      else deepCopy 93 b b) ++ deepCopy 95 b b ++
    inner.solve transpose b ++
    deepCopy 118 b b ++
    (if buffered then newView 121 buffer ++ deepCopy 123 buffer b ++ deepCopy 124 b buffer ++ [.free buffer]
      else deepCopy 126 b b)
  | .sparse mats bbuf x chunks =>
    newView 233 bbuf ++ newView 234 x ++
    (List.range chunks).flatMap (fun i =>
      deepCopy 255 bbuf b i ++ deepCopy 256 x b i ++ [.launch 0 ⟨260, bbuf :: mats, [x], i⟩] ++ deepCopy 277 b x i) ++
    [.free x, .free bbuf]

/-- A `SplineBuilder`. -/
structure Builder where
  lower : Closure
  upper : Closure
  periodic : Bool
  solver : Solver

/-- One closure of `SplineBuilder::operator()`: a kernel for the derivatives, a fill with zeros, or nothing. -/
def closure (c : Closure) (hermiteLine homogeneousLine spline derivs : Nat) : List Cmd :=
  match c with
  | .hermite => [.launch 0 ⟨hermiteLine, [derivs], [spline], 0⟩]
  | .homogeneousHermite => [.launch 0 ⟨homogeneousLine, [], [spline], 0⟩]
  | _ => []

/-- `SplineBuilder::operator()` (spline_builder.hpp lines 905-1101) for a batch domain that is not empty.  `tr` is
`spline_tr_alloc`, released when the function returns. -/
def Builder.call (B : Builder) (spline vals derivsMin derivsMax tr : Nat) : List Cmd :=
  closure B.lower 957 977 spline derivsMin ++
  [.launch 0 ⟨981, [], [spline], 0⟩,
   .launch 0 ⟨989, [vals], [spline], 0⟩] ++
  closure B.upper 1011 1032 spline derivsMax ++
  [.alloc tr,
   .launch 0 ⟨1042, [spline], [tr], 0⟩] ++
  B.solver.solve false tr ++
  [.launch 0 ⟨1061, [tr], [spline], 0⟩] ++
  (if B.periodic then [.launch 0 ⟨1075, [], [spline], 0⟩] else []) ++
  [.free tr]

/-- `SplineBuilder2D::operator()` (spline_builder_2d.hpp lines 587-651): `t1`, `t2`, `t3` are `spline1_deriv_min_alloc`,
`spline1_alloc` and `spline1_deriv_max_alloc`; `tr` is the temporary of the builders. -/
def Builder.call2 (B₁ B₂ : Builder) (spline vals dmin1 dmax1 dmin2 dmax2 mm xm mx xx t1 t2 t3 tr : Nat) : List Cmd :=
  [.alloc t1] ++
  (if B₂.lower = .hermite then B₁.call t1 dmin2 mm xm tr else []) ++
  [.alloc t2] ++
  B₁.call t2 vals dmin1 dmax1 tr ++
  [.alloc t3] ++
  (if B₂.upper = .hermite then B₁.call t3 dmax2 mx xx tr else []) ++
  B₂.call spline t2 t1 t3 tr ++
  [.free t3, .free t2, .free t1]

/-- Temporaries, each with the commands that fill it, around `body`; they are released in the opposite order. -/
def scopes (body : List Cmd) : List (Nat × List Cmd) → List Cmd
  | [] => body
  | t :: r => [.alloc t.1] ++ t.2 ++ scopes body r ++ [.free t.1]

/-- The closure of one side (`true`: the upper one) is a Hermite closure. -/
def Builder.hermite (B : Builder) (side : Bool) : Bool :=
  decide ((if side then B.upper else B.lower) = .hermite)

/-- The names of the derivatives that `SplineBuilder3D::operator()` gets; `false` is the lower side. -/
structure Derivs3 where
  d1 : Bool → Nat
  d2 : Bool → Nat
  d3 : Bool → Nat
  d12 : Bool → Bool → Nat
  d13 : Bool → Bool → Nat
  d23 : Bool → Bool → Nat
  d123 : Bool → Bool → Bool → Nat

/-- The temporaries of `SplineBuilder3D::operator()`: `spline_derivs_min2_alloc` and so on, `spline1_alloc`, those of the
2D builder, and that of the builders. -/
structure Temps3 where
  t2 : Bool → Nat
  t3 : Bool → Nat
  t23 : Bool → Bool → Nat
  s1 : Nat
  u1 : Nat
  u2 : Nat
  u3 : Nat
  tr : Nat

/-- The temporaries of the function itself with the calls of `m_spline_builder1` that fill them
(spline_builder_3d.hpp lines 946-1111). -/
def Builder.inits3 (B₁ B₂ B₃ : Builder) (vals : Nat) (D : Derivs3) (T : Temps3) : List (Nat × List Cmd) :=
  let call (c : Bool) (o v a b : Nat) : Nat × List Cmd := (o, if c then B₁.call o v a b T.tr else [])
  [call (B₂.hermite false) (T.t2 false) (D.d2 false) (D.d12 false false) (D.d12 true false),
   call (B₂.hermite true) (T.t2 true) (D.d2 true) (D.d12 false true) (D.d12 true true),
   call (B₃.hermite false) (T.t3 false) (D.d3 false) (D.d13 false false) (D.d13 true false),
   call (B₃.hermite true) (T.t3 true) (D.d3 true) (D.d13 false true) (D.d13 true true),
   call (B₂.hermite false || B₃.hermite false) (T.t23 false false) (D.d23 false false) (D.d123 false false false)
     (D.d123 true false false),
   call (B₂.hermite false || B₃.hermite true) (T.t23 false true) (D.d23 false true) (D.d123 false false true)
     (D.d123 true false true),
   call (B₂.hermite true || B₃.hermite false) (T.t23 true false) (D.d23 true false) (D.d123 false true false)
     (D.d123 true true false),
   call (B₂.hermite true || B₃.hermite true) (T.t23 true true) (D.d23 true true) (D.d123 false true true)
     (D.d123 true true true),
   (T.s1, B₁.call T.s1 vals (D.d1 false) (D.d1 true) T.tr)]

/-- `SplineBuilder3D::operator()` (spline_builder_3d.hpp lines 934-1124). -/
def Builder.call3 (B₁ B₂ B₃ : Builder) (spline vals : Nat) (D : Derivs3) (T : Temps3) : List Cmd :=
  scopes (B₂.call2 B₃ spline T.s1 (T.t2 false) (T.t2 true) (T.t3 false) (T.t3 true) (T.t23 false false)
    (T.t23 true false) (T.t23 false true) (T.t23 true true) T.u1 T.u2 T.u3 T.tr) (B₁.inits3 B₂ B₃ vals D T)

/-- `integrals` (kernels/splines/integrals.hpp lines 31-175) on the instance `i`: a fill of the regular splines, then the
splines of the edges or the repeated splines of a periodic basis; the first is a loop for non-uniform splines. -/
def integrals (i : Nat) (uniform periodic repeated : Bool) (vals : Nat) : List Cmd :=
  match uniform, periodic with
  | true, true => [.launch i ⟨54, [], [vals], 0⟩] ++ if repeated then [.launch i ⟨61, [], [vals], 0⟩] else []
  | true, false => [.launch i ⟨68, [], [vals], 0⟩, .launch i ⟨76, [], [vals], 0⟩]
  | false, true => [.launch i ⟨135, [], [vals], 0⟩] ++ if repeated then [.launch i ⟨150, [], [vals], 0⟩] else []
  | false, false => [.launch i ⟨135, [], [vals], 0⟩]

/-- `SplineBuilder::quadrature_coefficients` (spline_builder.hpp lines 1128-1234): `ib` is `integral_bsplines`, `mirror`
`integral_bsplines_mirror_with_additional_allocation`; the three outputs stay. -/
def Builder.quadrature (B : Builder) (uniform : Bool) (ib mirror out1 out2 out3 : Nat) : List Cmd :=
  [.alloc ib] ++ integrals 0 uniform B.periodic true ib ++
  newView 1140 mirror ++
  deepCopy 1157 mirror ib ++
  B.solver.solve true mirror ++
  deepCopy 1161 ib mirror ++
  [.launch 0 ⟨1187, [], [ib], 0⟩, .launch 0 ⟨1196, [], [ib], 0⟩] ++
  [.alloc out1, .alloc out2, .alloc out3] ++
  deepCopy 1221 out1 ib ++ deepCopy 1224 out2 ib ++ deepCopy 1227 out3 ib ++
  [.free mirror, .free ib]

/-- `operator()` and `deriv` of the evaluators (spline_evaluator.hpp lines 260-297, 325-350, 405-435, 455-480, and the
same functions of the evaluators of more dimensions): one kernel. -/
def evaluate (line out : Nat) (ins : List Nat) : List Cmd := [.launch 0 ⟨line, ins, [out], 0⟩]

/-- `integrate` of the evaluators (spline_evaluator.hpp lines 494-526, spline_evaluator_2d.hpp 617-662,
spline_evaluator_3d.hpp and spline_evaluator_nd.hpp): one temporary for every dimension. -/
def integrate (uniform periodic : Bool) (out coef : Nat) (values : List Nat) : List Cmd :=
  scopes [.launch 0 ⟨515, coef :: values, [out], 0⟩] (values.map fun v => (v, integrals 0 uniform periodic true v))

/-- `SparseDiscreteDomain(views...)` (sparse_discrete_domain.hpp lines 101-115, 152-162): a view, a copy of the
identifiers for every dimension, then `exec_space.fence`.  The pairs are the input and the output of each dimension. -/
def sparseDomain (views : List (Nat × Nat)) : List Cmd :=
  views.flatMap (fun v => newView 106 v.2 ++ [.launch 0 ⟨107, [v.1], [v.2], 0⟩]) ++ [.fenceOn 0]

/-- `create_mirror_and_copy` (create_mirror.hpp lines 75-90): an allocation, then `parallel_deepcopy` without an execution
space (parallel_deepcopy.hpp lines 19-31). -/
def mirrorAndCopy (mirror src : Nat) : List Cmd := [.alloc mirror] ++ deepCopy 29 mirror src

/-- `fft` and `ifft` (kernels/fft.hpp lines 147-228) on the instance `i`: the transform, then the scaling of the full
normalisation. -/
def fft (i out inp : Nat) (full : Bool) : List Cmd :=
  [.launch i ⟨181, [inp], [out], 0⟩] ++ if full then [.launch i ⟨226, [], [out], 0⟩] else []

/-- A `Kokkos::parallel_for` on the default host execution space.  `waits`: it returns when the kernel has run, which
`Kokkos::Serial` and `Kokkos::OpenMP` do and the contract of Kokkos does not promise; instance 1 is the host space. -/
def hostFor (waits : Bool) (k : Kernel) : List Cmd := if waits then [.host k] else [.launch 1 k]

/-- A `Kokkos::DualView`. -/
structure Dual where
  onHost : Nat
  onDevice : Nat

/-- `modify_host(); sync_device();` -/
def Dual.push (d : Dual) (line : Nat) : List Cmd := deepCopy line d.onDevice d.onHost

/-- `modify_device(); sync_host();` -/
def Dual.pull (d : Dual) (line : Nat) : List Cmd := deepCopy line d.onHost d.onDevice

/-- `setup_solver` of the band, positive definite and dense problems (splines_linear_problem_band.cpp lines 109-135,
pds_band.cpp 84-102, pds_tridiag.cpp 81-94, dense.cpp 67-90): LAPACK on the host, the pivots, then the copies to the
device.  `matrix` and `pivots` are the two dual views (the positive definite problems have no pivots). -/
def directSetup (line : Nat) (matrix : Dual) (pivots : Option Dual) : List Cmd :=
  [.host ⟨line, [], matrix.onHost :: (pivots.map Dual.onHost).toList, 0⟩] ++
  (match pivots with
    | none => matrix.push line
    | some d => [.host ⟨line, [], [d.onHost], 1⟩] ++ matrix.push line ++ d.push line)

/-- `Kokkos::resize(v, n)`: a new allocation `new`, a copy, and the old one is released. -/
def resize (line old new : Nat) : List Cmd := newView line new ++ deepCopy line new old ++ [.free old]

/-- `dense2coo` (splines_linear_problem_2x2_blocks.cpp lines 146-190): the three arrays, the counter (a dual view), one
kernel, the counter back on the host, the arrays cut to that length.  `old` and `new` are the arrays before and after. -/
def dense2coo (dense : Nat) (counter : Dual) (old new : Nat × Nat × Nat) : List Cmd :=
  newView 149 old.1 ++ newView 151 old.2.1 ++ newView 153 old.2.2 ++
  newView 156 counter.onHost ++ newView 156 counter.onDevice ++
  [.host ⟨159, [], [counter.onHost], 0⟩] ++ counter.push 161 ++
  [.launch 0 ⟨166, [dense], [old.1, old.2.1, old.2.2, counter.onDevice], 0⟩] ++
  counter.pull 183 ++
  [.host ⟨184, [counter.onHost], [], 0⟩] ++
  resize 184 old.1 new.1 ++ resize 185 old.2.1 new.2.1 ++ resize 186 old.2.2 new.2.2 ++
  [.free counter.onDevice, .free counter.onHost]

/-- `compute_schur_complement` (splines_linear_problem_2x2_blocks.cpp lines 192-210): a loop on the host space. -/
def schur (waits : Bool) (topRight bottomLeft bottomRight : Dual) : List Cmd :=
  hostFor waits ⟨197, [topRight.onHost, bottomLeft.onHost], [bottomRight.onHost], 0⟩

/-- The buffers of a `SplinesLinearProblem2x2Blocks` with a direct top-left block. -/
structure Blocks where
  q : Dual
  qPivots : Option Dual
  topRight : Dual
  bottomLeft : Dual
  bottomRight : Dual
  bottomRightPivots : Dual
  counter : Dual
  old₁ : Nat × Nat × Nat
  new₁ : Nat × Nat × Nat
  old₂ : Nat × Nat × Nat
  new₂ : Nat × Nat × Nat

/-- The matrices of the top-left block on the device. -/
def Blocks.qDevice (B : Blocks) : List Nat := B.q.onDevice :: (B.qPivots.map Dual.onDevice).toList

/-- `SplinesLinearProblem2x2Blocks::setup_solver` (lines 212-234). -/
def Blocks.setup (waits : Bool) (B : Blocks) : List Cmd :=
  directSetup 109 B.q B.qPivots ++
  B.topRight.push 220 ++
  (Solver.direct 148 B.qDevice).solve false B.topRight.onDevice ++
  dense2coo B.topRight.onDevice B.counter B.old₁ B.new₁ ++
  B.topRight.pull 224 ++
  B.bottomLeft.push 228 ++
  dense2coo B.bottomLeft.onDevice B.counter B.old₂ B.new₂ ++
  schur waits B.topRight B.bottomLeft B.bottomRight ++
  directSetup 67 B.bottomRight (some B.bottomRightPivots)

end DDC.Async
