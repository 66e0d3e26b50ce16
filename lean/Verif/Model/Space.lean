import Verif.Model.Domain

/-!
# Discrete spaces

Model of `/repo/src/ddc/discrete_space.hpp` (lines 92-226), `/repo/src/ddc/discrete_space.cpp`,
`/repo/src/ddc/scope_guard.cpp` and `/repo/src/ddc/trivial_space.hpp`.

Only the host part is modelled here: `DualDiscretization` is the pair of a host object and, with a GPU
backend, of a device copy of it (detail/dual_discretization.hpp); the copies to device symbols are
modelled in `Verif.Model.DeviceSpace`.  `δ` is the set of discrete dimension types, `κ` the set of values of
`typeid(DDim).name()`, `A` the attributes (`DDim::Impl`).
-/

namespace DDC

variable {δ κ A : Type} [DecidableEq δ] [DecidableEq κ]

/-- The global variables: `g_discretization_store` (discrete_space.hpp line 93), a map from names to
the dimension its resetter resets, and `g_discrete_space_dual<DDim>` (lines 95-97) for every
dimension.  `log` records the resetters that were called, oldest first.  `std::map` iterates in the order of
the names; here it is the order of insertion, the resetters commute. -/
structure Spaces (δ κ A : Type) where
  store : Option (List (κ × δ))
  dual : δ → Option A
  log : List δ

namespace Spaces

/-- Start of the program. -/
def start : Spaces δ κ A := ⟨none, fun _ => none, []⟩

/-- How a call ended. -/
inductive Out
  | returned
  | threw
  deriving DecidableEq, Repr

/-- `ScopeGuard::ScopeGuard()` (scope_guard.cpp lines 16-29). -/
def guardCtor (s : Spaces δ κ A) : Spaces δ κ A := { s with store := some [] }

/-- `std::map::emplace`: nothing happens when the key is present. -/
def emplace (m : List (κ × δ)) (k : κ) (d : δ) : List (κ × δ) :=
  if m.any (fun p => decide (p.1 = k)) then m else m ++ [(k, d)]

/-- The resetter stored by `init_discrete_space<d>` (discrete_space.hpp lines 142-144). -/
def reset (s : Spaces δ κ A) (d : δ) : Spaces δ κ A :=
  { s with dual := fun x => if x = d then none else s.dual x, log := s.log ++ [d] }

/-- `ScopeGuard::~ScopeGuard()` (scope_guard.cpp lines 33-39). -/
def guardDtor (s : Spaces δ κ A) : Res (Spaces δ κ A) :=
  match s.store with
  | none => .ub
  | some m => .ok { (m.foldl (fun s p => reset s p.2) s) with store := none }

/-- `init_discrete_space<d>(args...)` (discrete_space.hpp lines 130-160); `ctor` is the
construction of the attributes from the arguments, `none` when it throws (`optional::emplace` then
leaves the variable empty). -/
def init (name : δ → κ) (d : δ) (ctor : Option A) (s : Spaces δ κ A) : Res (Spaces δ κ A × Out) :=
  match s.dual d with
  | some _ => .ok (s, .threw)
  | none =>
    match ctor with
    | none => .ok (s, .threw)
    | some a =>
      match s.store with
      | none => .ub
      | some m => .ok (⟨some (emplace m (name d) d), fun x => if x = d then some a else s.dual x, s.log⟩, .returned)

/-- `init_discrete_space<d>(std::tuple&&)` (discrete_space.hpp lines 167-184): the first component
initialises the space, the others are passed through. -/
def initTuple {β : Type} (name : δ → κ) (d : δ) (t : A × List β) (s : Spaces δ κ A) :
    Res (Spaces δ κ A × Out × List β) := do
  let (s', o) ← init name d (some t.1) s
  match o with
  | .returned => pure (s', o, t.2)
  | .threw => pure (s', o, [])

/-- `is_discrete_space_initialized<d>()` (discrete_space.hpp lines 191-195). -/
def isInit (s : Spaces δ κ A) (d : δ) : Bool := (s.dual d).isSome

/-- `host_discrete_space<d>()` and `discrete_space<d, HostSpace>()` (discrete_space.hpp lines
203-232), assertion checked. -/
def read (s : Spaces δ κ A) (d : δ) : Res A :=
  match s.dual d with
  | some a => .ok a
  | none => .abort

/-- `detail::display_discretization_store` (discrete_space.cpp lines 59-69): the names listed. -/
def display (s : Spaces δ κ A) : Option (List κ) := s.store.map (fun m => m.map Prod.fst)

/-- The calls of a program that change the variables. -/
inductive Op (δ A : Type)
  | guard
  | unguard
  | init (d : δ) (ctor : Option A)
  deriving DecidableEq, Repr

/-- One call. -/
def step (name : δ → κ) (s : Spaces δ κ A) : Op δ A → Res (Spaces δ κ A × Out)
  | .guard => .ok (guardCtor s, .returned)
  | .unguard => do
    let s' ← guardDtor s
    pure (s', .returned)
  | .init d c => init name d c s

/-- A whole history. -/
def run (name : δ → κ) (h : List (Op δ A)) (s : Spaces δ κ A) : Res (Spaces δ κ A) :=
  h.foldlM (fun s op => do
    let (s', _) ← step name s op
    pure s') s

end Spaces

/-- `init_trivial_bounded_space<t>(n)` (trivial_space.hpp lines 18-22). -/
def initTrivialBounded {τ : Type} [DecidableEq τ] (t : τ) (n : I64) : Res (Dom τ) :=
  Dom.ofSize (Elem.createReference t) [(t, n)]

/-- `init_trivial_half_bounded_space<t>()` (trivial_space.hpp lines 28-32). -/
def initTrivialHalfBounded {τ : Type} (t : τ) : Elem τ := Elem.createReference t

end DDC
