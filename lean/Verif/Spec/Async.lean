import Verif.Model.Async

/-!
# What a launch means

The specification of C66: every kernel runs when it is launched, and the host waits for it.
-/

namespace DDC.Spec

open DDC.Async

variable {V : Type}

/-- The commands, each kernel at once. -/
def sync (W : World V) : List Cmd → Mem V → Res (Mem V)
  | [], m => .ok m
  | .launch _ k :: p, m => do
    let m' ← k.run W m
    sync W p m'
  | .host k :: p, m => do
    let m' ← k.run W m
    sync W p m'
  | .fence :: p, m => sync W p m
  | .fenceOn _ :: p, m => sync W p m
  | .alloc b :: p, m =>
    match m b with
    | some _ => .ub
    | none => sync W p (m.set b (some (W.fresh b)))
  | .free b :: p, m =>
    match m b with
    | some _ => sync W p (m.set b none)
    | none => .ub

/-- The kernels that wait, in the order of their launches. -/
def flush (W : World V) : List (Nat × Kernel) → Mem V → Res (Mem V)
  | [], m => .ok m
  | e :: P, m => do
    let m' ← e.2.run W m
    flush W P m'

/-- Whatever the host and the instances do first, nothing is undefined, and the buffers are `final` at the end. -/
def AsIfSynchronous (cfg : Config) (W : World V) (s : State V) (final : Mem V) : Prop :=
  ∀ ws, ∃ s', s.exec cfg W ws = .ok s' ∧ (s'.prog = [] → s'.pending = [] → s'.mem = final)

/-- When the host has done its commands, no kernel waits. -/
def ReturnsSynchronised (cfg : Config) (W : World V) (s : State V) : Prop :=
  ∀ ws s', s.exec cfg W ws = .ok s' → s'.prog = [] → s'.pending = []

/-- No deadlock: whatever was done first, the host can do all its commands and the instances all their kernels. -/
def CanFinish (cfg : Config) (W : World V) (s : State V) : Prop :=
  ∀ ws s', s.exec cfg W ws = .ok s' →
    ∃ ws' s'', s'.exec cfg W ws' = .ok s'' ∧ s''.prog = [] ∧ s''.pending = []

/-- The buffers of a command. -/
def buffers : Cmd → List Nat
  | .launch _ k => k.touches
  | .host k => k.touches
  | .alloc b => [b]
  | .free b => [b]
  | _ => []

/-- The state in which a function that launches on the instance `i` is called: the kernels that wait give the buffers
`m`, those on different instances do not conflict, and those that wait on other instances than `i` leave the buffers of
the function alone. -/
structure Called (i : Nat) (W : World V) (s : State V) (m : Mem V) : Prop where
  flushed : flush W s.pending s.mem = .ok m
  ordered : s.pending.Pairwise fun e f => e.1 ≠ f.1 → e.2.conflicts f.2 = false
  quiet : ∀ e ∈ s.pending, e.1 ≠ i → ∀ b ∈ e.2.touches, ∀ c ∈ s.prog, b ∉ buffers c

/-- The function computes what its commands give one after the other, whatever the schedule, and comes to an end. -/
structure Runs (cfg : Config) (W : World V) (s : State V) (m final : Mem V) : Prop where
  value : sync W s.prog m = .ok final
  always : AsIfSynchronous cfg W s final
  finishes : CanFinish cfg W s

end DDC.Spec

/-! ## The buffers that the functions need -/

namespace DDC.Async

variable {V : Type}

/-- The matrices of the linear problem. -/
def Solver.mats : Solver → List Nat
  | .direct _ mats => mats
  | .skip => []
  | .blocks2 topLeft bottomRight topRight bottomLeft => topLeft.mats ++ bottomRight.mats ++ topRight ++ bottomLeft
  | .blocks3 inner _ _ => inner.mats
  | .sparse mats _ _ _ => mats

/-- The temporaries of `solve`. -/
def Solver.temps : Solver → List Nat
  | .direct _ _ => []
  | .skip => []
  | .blocks2 topLeft bottomRight _ _ => topLeft.temps ++ bottomRight.temps
  | .blocks3 inner _ buffer => buffer :: inner.temps
  | .sparse _ bbuf x _ => [bbuf, x]

/-- The two temporaries of Ginkgo are two allocations. -/
def Solver.Distinct : Solver → Prop
  | .direct _ _ => True
  | .skip => True
  | .blocks2 topLeft bottomRight _ _ => topLeft.Distinct ∧ bottomRight.Distinct
  | .blocks3 inner _ _ => inner.Distinct
  | .sparse _ bbuf x _ => bbuf ≠ x

/-- The buffers that the 2D builder needs. -/
structure Needs2 (B₁ B₂ : Builder) (L : Nat → Prop) (vals dmin1 dmax1 dmin2 dmax2 mm xm mx xx : Nat) : Prop where
  vals : L vals
  dmin1 : B₁.lower = .hermite → L dmin1
  dmax1 : B₁.upper = .hermite → L dmax1
  dmin2 : B₂.lower = .hermite → L dmin2
  dmax2 : B₂.upper = .hermite → L dmax2
  mm : B₂.lower = .hermite → B₁.lower = .hermite → L mm
  xm : B₂.lower = .hermite → B₁.upper = .hermite → L xm
  mx : B₂.upper = .hermite → B₁.lower = .hermite → L mx
  xx : B₂.upper = .hermite → B₁.upper = .hermite → L xx

/-- The temporaries of a builder are free, and none of them is one of `ts`. -/
structure Temps (B : Builder) (L : Nat → Prop) (ts : List Nat) : Prop where
  dead : ∀ b ∈ B.solver.temps, ¬L b
  ne : ∀ b ∈ B.solver.temps, b ∉ ts
  mats : ∀ b ∈ B.solver.mats, L b
  distinct : B.solver.Distinct

/-- The temporaries of the 3D builder itself. -/
def Temps3.own (T : Temps3) : List Nat :=
  [T.t2 false, T.t2 true, T.t3 false, T.t3 true, T.t23 false false, T.t23 false true, T.t23 true false, T.t23 true true,
    T.s1]

/-- All the temporaries of the 3D builder. -/
def Temps3.all (T : Temps3) : List Nat := T.own ++ [T.u1, T.u2, T.u3, T.tr]

/-- The buffers that the 3D builder needs. -/
structure Needs3 (B₁ B₂ B₃ : Builder) (L : Nat → Prop) (vals : Nat) (D : Derivs3) : Prop where
  vals : L vals
  d1 : ∀ x, B₁.hermite x → L (D.d1 x)
  d2 : ∀ y, B₂.hermite y → L (D.d2 y) ∧ ∀ x, B₁.hermite x → L (D.d12 x y)
  d3 : ∀ z, B₃.hermite z → L (D.d3 z) ∧ ∀ x, B₁.hermite x → L (D.d13 x z)
  d23 : ∀ y z, B₂.hermite y ∨ B₃.hermite z → L (D.d23 y z) ∧ ∀ x, B₁.hermite x → L (D.d123 x y z)

/-- The live buffers. -/
def live (m : Mem V) : Nat → Prop := fun b => (m b).isSome

/-- The temporaries of `dense2coo`. -/
def cooTemps (counter : Dual) (old new : Nat × Nat × Nat) : List Nat :=
  [old.1, old.2.1, old.2.2, counter.onHost, counter.onDevice, new.1, new.2.1, new.2.2]

/-- The buffers of the matrices. -/
def Blocks.owned (B : Blocks) : List Nat :=
  [B.q.onHost, B.q.onDevice, B.topRight.onHost, B.topRight.onDevice, B.bottomLeft.onHost, B.bottomLeft.onDevice,
    B.bottomRight.onHost, B.bottomRight.onDevice, B.bottomRightPivots.onHost, B.bottomRightPivots.onDevice] ++
  (B.qPivots.map Dual.onHost).toList ++ (B.qPivots.map Dual.onDevice).toList

/-- The arrays that stay. -/
def Blocks.made (B : Blocks) : List Nat := [B.new₁.1, B.new₁.2.1, B.new₁.2.2, B.new₂.1, B.new₂.2.1, B.new₂.2.2]

end DDC.Async
