import Verif.Model.Space

/-!
# Discrete spaces on a device

Model of `/repo/src/ddc/discrete_space.hpp` (lines 58-160, 203-222), `/repo/src/ddc/detail/dual_discretization.hpp`
(lines 23-84) and `/repo/src/ddc/scope_guard.cpp` when a device backend (CUDA or HIP) is enabled: every discrete space
is built on the host, mirrored to the device by the converting constructor of its attributes, and the bytes of the
mirror are copied to a global variable of the device.

The attributes `DDim::Impl` are scalars `S` (origin, step, reference, domains) and at most one `Kokkos::View` whose
contents are of type `P` (the points of `NonUniformPointSampling`, non_uniform_point_sampling.hpp line 55).  The host and
the device have each a heap; addresses are not reused (an access to a released buffer is undefined, whatever is found
there).  `δ` and `κ` are as in `Verif.Model.Space`.
-/

namespace DDC.Device

variable {δ κ S P : Type} [DecidableEq δ] [DecidableEq κ]

/-- An object of type `DDim::Impl<DDim, MemorySpace>`: scalars and the address of the buffer of its view, `none` when it
has no view or the view is empty.  The reference count of the view is not part of it: a count of the copies of `Impl`
stored on the host is enough, and each of the two `Impl` of a `DualDiscretization` is the only owner of its buffer (their
copy constructors are deleted for attributes with a view, non_uniform_point_sampling.hpp lines 104-112). -/
structure Image (S : Type) where
  scalars : S
  ptr : Option Nat
  deriving DecidableEq, Repr

/-- `DualDiscretization<DDim>`: `m_host` and `m_device_on_host` (detail/dual_discretization.hpp lines 35-38). -/
structure Dual (S : Type) where
  host : Image S
  mirror : Image S
  deriving DecidableEq, Repr

/-- The global variables `g_discretization_store`, `g_discrete_space_dual<DDim>` and `g_discrete_space_device<DDim>`
(discrete_space.hpp lines 92-116), the live buffers of the host and of the device, and the next free address.  The
device variable is `none` as long as nothing was copied to it: its storage is then filled with zeros. -/
structure State (δ κ S P : Type) where
  store : Option (List (κ × δ))
  dual : δ → Option (Dual S)
  symbol : δ → Option (Image S)
  hostMem : Nat → Option P
  devMem : Nat → Option P
  next : Nat

/-- Start of the program. -/
def State.start : State δ κ S P := ⟨none, fun _ => none, fun _ => none, fun _ => none, fun _ => none, 0⟩

/-- The contents of the buffer an object refers to, read from the heap `m`; undefined when it was released. -/
def load (m : Nat → Option P) (i : Image S) : Res (S × Option P) :=
  match i.ptr with
  | none => .ok (i.scalars, none)
  | some n =>
    match m n with
    | none => .ub
    | some p => .ok (i.scalars, some p)

/-- Destruction of an object: its buffer is released; undefined when it is released twice. -/
def release (m : Nat → Option P) (i : Image S) : Res (Nat → Option P) :=
  match i.ptr with
  | none => .ok m
  | some n =>
    match m n with
    | none => .ub
    | some _ => .ok (fun k => if k = n then none else m k)

/-- `m_host(std::forward<Args>(args)...)` (detail/dual_discretization.hpp line 43): the scalars are stored and the points,
if any, are copied to a new host buffer (non_uniform_point_sampling.hpp lines 82-95; for an `Impl` moved from the result
of `init` the buffer is taken over, which is not distinguished here). -/
def State.buildHost (s : State δ κ S P) (a : S × Option P) : Image S × State δ κ S P :=
  match a.2 with
  | none => (⟨a.1, none⟩, s)
  | some p => (⟨a.1, some s.next⟩, { s with hostMem := fun k => if k = s.next then some p else s.hostMem k, next := s.next + 1 })

/-- `m_device_on_host(m_host)` (detail/dual_discretization.hpp lines 44-46): the converting constructors copy every scalar
(uniform_point_sampling.hpp lines 76-82, periodic_sampling.hpp lines 80-87, bsplines_uniform.hpp lines 154-160,
bsplines_non_uniform.hpp lines 168-174) and `Kokkos::create_mirror_view_and_copy` copies the points to a new device buffer
(non_uniform_point_sampling.hpp lines 97-102). -/
def State.buildMirror (s : State δ κ S P) (h : Image S) : Res (Image S × State δ κ S P) := do
  let v ← load s.hostMem h
  match v.2 with
  | none => pure (⟨v.1, none⟩, s)
  | some p => pure (⟨v.1, some s.next⟩,
      { s with devMem := fun k => if k = s.next then some p else s.devMem k, next := s.next + 1 })

/-- The arguments of a call of `init_discrete_space`: the dimension, the attributes its constructor builds (`none` when the
constructor throws, e.g. for points that are not sorted), and whether the copy to the device variable succeeds. -/
structure Call (δ S P : Type) where
  dim : δ
  attrs : Option (S × Option P)
  copied : Bool
  deriving DecidableEq, Repr

/-- `init_discrete_space<DDim>(args...)` from the construction of the attributes on (discrete_space.hpp lines 141-160 and
detail/dual_discretization.hpp lines 40-48): `emplace`, the resetter, the copy to the device variable, and
`device_throw_on_error` (discrete_space.cpp lines 26-54). -/
def State.construct (name : δ → κ) (c : Call δ S P) (s : State δ κ S P) : Res (State δ κ S P × Spaces.Out) :=
  match c.attrs with
  | none => .ok (s, .threw)
  | some a => do
    let (h, s) := s.buildHost a
    let (d, s) ← s.buildMirror h
    match s.store with
    | none => .ub
    | some m =>
      let s := { s with dual := fun x => if x = c.dim then some ⟨h, d⟩ else s.dual x, store := some (Spaces.emplace m (name c.dim) c.dim) }
      match c.copied with
      | false => pure (s, .threw)
      | true => pure ({ s with symbol := fun x => if x = c.dim then some d else s.symbol x }, .returned)

/-- `init_discrete_space<DDim>(args...)` (discrete_space.hpp lines 131-160) for attributes whose constructor does not
initialise another dimension. -/
def State.init (name : δ → κ) (c : Call δ S P) (s : State δ κ S P) : Res (State δ κ S P × Spaces.Out) :=
  match s.dual c.dim with
  | some _ => .ok (s, .threw)
  | none => s.construct name c

/-- Calls one after the other until one throws. -/
def State.inits (name : δ → κ) : List (Call δ S P) → State δ κ S P → Res (State δ κ S P × Spaces.Out)
  | [], s => .ok (s, .returned)
  | c :: l, s => do
    let (s, o) ← s.init name c
    match o with
    | .threw => pure (s, .threw)
    | .returned => State.inits name l s

/-- `init_discrete_space<DDim>(args...)` for attributes whose constructor initialises other dimensions first: the B-splines
initialise the dimension of their knots (bsplines_uniform.hpp lines 137-147, bsplines_non_uniform.hpp line 456). -/
def State.initWith (name : δ → κ) (inner : List (Call δ S P)) (c : Call δ S P) (s : State δ κ S P) :
    Res (State δ κ S P × Spaces.Out) :=
  match s.dual c.dim with
  | some _ => .ok (s, .threw)
  | none => do
    let (s, o) ← State.inits name inner s
    match o with
    | .threw => pure (s, .threw)
    | .returned => s.construct name c

/-- The resetter (discrete_space.hpp lines 142-144): `std::optional::reset` destroys `m_device_on_host` and `m_host`; nothing
is done for an empty one.  The device variable keeps its bytes. -/
def State.reset (s : State δ κ S P) (d : δ) : Res (State δ κ S P) :=
  match s.dual d with
  | none => .ok s
  | some x => do
    let dev ← release s.devMem x.mirror
    let host ← release s.hostMem x.host
    pure { s with dual := fun y => if y = d then none else s.dual y, devMem := dev, hostMem := host }

/-- `ScopeGuard::~ScopeGuard()` (scope_guard.cpp lines 33-39). -/
def State.guardDtor (s : State δ κ S P) : Res (State δ κ S P) :=
  match s.store with
  | none => .ub
  | some m => do
    let s ← m.foldlM (fun s p => s.reset p.2) s
    pure { s with store := none }

/-- `host_discrete_space<DDim>()` (discrete_space.hpp lines 225-232) and the points of the result. -/
def State.readHost (s : State δ κ S P) (d : δ) : Res (S × Option P) :=
  match s.dual d with
  | none => .abort
  | some x => load s.hostMem x.host

/-- `discrete_space<DDim, GlobalVariableDeviceSpace>()` (discrete_space.hpp lines 211-214) in a kernel, and the points of
the result: no check; `zero` is what storage filled with zeros is read as. -/
def State.readDevice (zero : S) (s : State δ κ S P) (d : δ) : Res (S × Option P) :=
  match s.symbol d with
  | none => .ok (zero, none)
  | some i => load s.devMem i

/-- The calls of a program that change the variables. -/
inductive Op (δ S P : Type)
  | guard
  | unguard
  | init (inner : List (Call δ S P)) (c : Call δ S P)
  deriving DecidableEq, Repr

/-- One call. -/
def State.step (name : δ → κ) (s : State δ κ S P) : Op δ S P → Res (State δ κ S P × Spaces.Out)
  | .guard => .ok ({ s with store := some [] }, .returned)
  | .unguard => do
    let s ← s.guardDtor
    pure (s, .returned)
  | .init inner c => s.initWith name inner c

/-- A whole history. -/
def State.run (name : δ → κ) (h : List (Op δ S P)) (s : State δ κ S P) : Res (State δ κ S P) :=
  h.foldlM (fun s op => do
    let (s', _) ← s.step name op
    pure s') s

end DDC.Device
