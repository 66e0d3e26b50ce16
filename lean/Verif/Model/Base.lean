/-!
# Outcomes and machine integers

Common vocabulary of the model.  Nothing here models a particular function of
DDC; it fixes how C++ outcomes and 64-bit integers are represented.
-/

namespace DDC

/-- Outcome of a C++ expression.
* `ok a`   : normal completion with value `a`;
* `ub`     : undefined behaviour (signed overflow, division by zero, out-of-bounds access, ...);
* `throw`  : a C++ exception is thrown;
* `abort`  : an `assert`/`KOKKOS_ASSERT` fails or `std::terminate` is reached;
* `ill`    : the program is ill-formed (a `static_assert` or constraint fails). -/
inductive Res (α : Type u) where
  | ok (a : α)
  | ub
  | throw
  | abort
  | ill
  deriving Repr, DecidableEq

namespace Res

/-- Sequencing: the first abnormal outcome wins. -/
def bind {α : Type u} {β : Type v} (x : Res α) (f : α → Res β) : Res β :=
  match x with
  | ok a => f a
  | ub => ub
  | throw => throw
  | abort => abort
  | ill => ill

instance : Monad Res where
  pure := Res.ok
  bind := Res.bind

@[simp] theorem pure_eq {α : Type u} (a : α) : (pure a : Res α) = ok a := rfl
@[simp] theorem ok_bind {α β : Type u} (a : α) (f : α → Res β) : (ok a >>= f) = f a := rfl
@[simp] theorem ub_bind {α β : Type u} (f : α → Res β) : ((ub : Res α) >>= f) = ub := rfl
@[simp] theorem throw_bind {α β : Type u} (f : α → Res β) : ((throw : Res α) >>= f) = throw := rfl
@[simp] theorem abort_bind {α β : Type u} (f : α → Res β) : ((abort : Res α) >>= f) = abort := rfl
@[simp] theorem ill_bind {α β : Type u} (f : α → Res β) : ((ill : Res α) >>= f) = ill := rfl

instance : LawfulMonad Res := LawfulMonad.mk'
  (id_map := by intro α x; cases x <;> rfl)
  (pure_bind := by intros; rfl)
  (bind_assoc := by intro α β γ x f g; cases x <;> rfl)

theorem bind_eq_ok {α β : Type u} {x : Res α} {f : α → Res β} {b : β} :
    (x >>= f) = ok b ↔ ∃ a, x = ok a ∧ f a = ok b := by
  cases x <;> simp

@[simp] theorem map_ok {α β : Type u} (g : α → β) (a : α) : (g <$> (ok a : Res α)) = ok (g a) := rfl

/-- `static_assert`-like guard. -/
def guardIll (b : Bool) : Res Unit := if b then ok () else ill

/-- `assert`-like guard. -/
def guardAbort (b : Bool) : Res Unit := if b then ok () else abort

/-- Lift of an optional value whose absence makes the program ill-formed. -/
def ofOptionIll {α : Type u} : Option α → Res α
  | some a => ok a
  | none => ill

@[simp] theorem guardIll_true : guardIll true = ok () := rfl
@[simp] theorem guardAbort_true : guardAbort true = ok () := rfl
@[simp] theorem guardIll_false : guardIll false = ill := rfl
@[simp] theorem guardAbort_false : guardAbort false = abort := rfl
@[simp] theorem ofOptionIll_some {α : Type u} (a : α) : ofOptionIll (some a) = ok a := rfl
@[simp] theorem ofOptionIll_none {α : Type u} : (ofOptionIll none : Res α) = ill := rfl

end Res

/-- `std::size_t` on a 64-bit target: unsigned, modulo `2^64`. -/
abbrev U64 := BitVec 64

/-- `std::ptrdiff_t` on a 64-bit target: the same bits read in two's complement
through `BitVec.toInt`. -/
abbrev I64 := BitVec 64

end DDC
