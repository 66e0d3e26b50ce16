import Verif.Lemmas.Reducer
import Mathlib.Algebra.Ring.Defs
import Mathlib.Order.Lattice

/-!
# C24  Reducers form commutative monoids with the advertised neutral element

The DDC functors have no `neutral()`; the neutral element used by the parallel
algorithms is the identity of the Kokkos reducer they are mapped to.  `CommMonoidOn P op
e` says: `e` is in `P`, `op` preserves `P`, is associative and commutative on `P` and has
`e` as two-sided identity on `P`.
-/

namespace DDC.Props

open Spec

/-- Unsigned integers of any width (for the logical reducers: the values `0` and `1`):
each functor is a commutative monoid with the identity of its Kokkos reducer, and the
Kokkos `join` computes the same function. -/
theorem C24_unsigned (r : RedName) (w : Nat) (hw : 0 < w) :
    CommMonoidOn (T := BitVec w) r.Dom r.op r.kokkos.identity ∧
    ∀ a b : BitVec w, r.Dom a → r.Dom b → r.kokkos.join a b = r.op a b := by
  have h10 : (1 : BitVec w) ≠ 0 := by
    intro h
    have := congrArg BitVec.toNat h
    have hp := Nat.one_lt_two_pow (n := w) (by omega)
    simp [Nat.mod_eq_of_lt hp] at this
  have hall : ∀ a : BitVec w, a.toNat ≤ (BitVec.allOnes w).toNat := by
    intro a; rw [BitVec.toNat_allOnes]; omega
  cases r with
  | sum =>
    refine ⟨⟨⟨trivial, fun _ _ _ _ => trivial, ?_, ?_, ?_⟩, ?_⟩, fun _ _ _ _ => rfl⟩
    · intro a b c _ _ _; exact BitVec.add_assoc a b c
    · intro a _; exact BitVec.zero_add a
    · intro a _; exact BitVec.add_zero a
    · intro a b _ _; exact BitVec.add_comm a b
  | prod =>
    refine ⟨⟨⟨trivial, fun _ _ _ _ => trivial, ?_, ?_, ?_⟩, ?_⟩, fun _ _ _ _ => rfl⟩
    · intro a b c _ _ _; exact BitVec.mul_assoc a b c
    · intro a _; exact BitVec.one_mul a
    · intro a _; exact BitVec.mul_one a
    · intro a b _ _; exact BitVec.mul_comm a b
  | land =>
    refine ⟨⟨⟨.inr rfl, ?_, ?_, ?_, ?_⟩, ?_⟩, fun _ _ _ _ => rfl⟩
    · intro a b _ _; simp only [RedName.Dom, RedName.op, Reducer.land]; split <;> simp
    · rintro a b c (rfl | rfl) (rfl | rfl) (rfl | rfl) <;> simp [RedName.op, Reducer.land, h10]
    · rintro a (rfl | rfl) <;> simp [RedName.op, RedName.kokkos, Reducer.land, h10]
    · rintro a (rfl | rfl) <;> simp [RedName.op, RedName.kokkos, Reducer.land, h10]
    · rintro a b (rfl | rfl) (rfl | rfl) <;> simp [RedName.op, Reducer.land]
  | lor =>
    refine ⟨⟨⟨.inl rfl, ?_, ?_, ?_, ?_⟩, ?_⟩, fun _ _ _ _ => rfl⟩
    · intro a b _ _; simp only [RedName.Dom, RedName.op, Reducer.lor]; split <;> simp
    · rintro a b c (rfl | rfl) (rfl | rfl) (rfl | rfl) <;> simp [RedName.op, Reducer.lor, h10]
    · rintro a (rfl | rfl) <;> simp [RedName.op, RedName.kokkos, Reducer.lor, h10]
    · rintro a (rfl | rfl) <;> simp [RedName.op, RedName.kokkos, Reducer.lor, h10]
    · rintro a b (rfl | rfl) (rfl | rfl) <;> simp [RedName.op, Reducer.lor]
  | band =>
    refine ⟨⟨⟨trivial, fun _ _ _ _ => trivial, ?_, ?_, ?_⟩, ?_⟩, fun _ _ _ _ => rfl⟩
    · intro a b c _ _ _; exact BitVec.and_assoc a b c
    · intro a _; exact BitVec.allOnes_and
    · intro a _; exact BitVec.and_allOnes
    · intro a b _ _; exact BitVec.and_comm a b
  | bor =>
    refine ⟨⟨⟨trivial, fun _ _ _ _ => trivial, ?_, ?_, ?_⟩, ?_⟩, fun _ _ _ _ => rfl⟩
    · intro a b c _ _ _; exact BitVec.or_assoc a b c
    · intro a _; exact BitVec.zero_or
    · intro a _; exact BitVec.or_zero
    · intro a b _ _; exact BitVec.or_comm a b
  | min =>
    refine ⟨⟨⟨trivial, fun _ _ _ _ => trivial, ?_, ?_, ?_⟩, ?_⟩, ?_⟩
    · intro a b c _ _ _
      simp only [RedName.op, Reducer.min, BitVec.lt_def]
      refine BitVec.eq_of_toNat_eq ?_
      (repeat' split) <;> omega
    · intro a _
      have := hall a
      simp only [RedName.op, RedName.kokkos, Reducer.min, BitVec.lt_def]
      refine BitVec.eq_of_toNat_eq ?_
      split <;> omega
    · intro a _
      have := hall a
      simp only [RedName.op, RedName.kokkos, Reducer.min, BitVec.lt_def]
      refine BitVec.eq_of_toNat_eq ?_
      split <;> omega
    · intro a b _ _
      simp only [RedName.op, Reducer.min, BitVec.lt_def]
      refine BitVec.eq_of_toNat_eq ?_
      split <;> split <;> omega
    · intro a b _ _
      simp only [RedName.op, RedName.kokkos, Reducer.min, BitVec.lt_def]
      refine BitVec.eq_of_toNat_eq ?_
      split <;> split <;> omega
  | max =>
    have h0 : (0 : BitVec w).toNat = 0 := by simp
    refine ⟨⟨⟨trivial, fun _ _ _ _ => trivial, ?_, ?_, ?_⟩, ?_⟩, ?_⟩
    · intro a b c _ _ _
      simp only [RedName.op, Reducer.max, GT.gt, BitVec.lt_def]
      refine BitVec.eq_of_toNat_eq ?_
      (repeat' split) <;> omega
    · intro a _
      simp only [RedName.op, RedName.kokkos, Reducer.max, GT.gt, BitVec.lt_def]
      refine BitVec.eq_of_toNat_eq ?_
      split <;> omega
    · intro a _
      simp only [RedName.op, RedName.kokkos, Reducer.max, GT.gt, BitVec.lt_def]
      refine BitVec.eq_of_toNat_eq ?_
      split <;> omega
    · intro a b _ _
      simp only [RedName.op, Reducer.max, GT.gt, BitVec.lt_def]
      refine BitVec.eq_of_toNat_eq ?_
      split <;> split <;> omega
    · intro a b _ _
      simp only [RedName.op, RedName.kokkos, Reducer.max, GT.gt, BitVec.lt_def]
      refine BitVec.eq_of_toNat_eq ?_
      split <;> split <;> omega

/-- The functors compute what their names say. -/
theorem C24_meaning (w : Nat) (a b : BitVec w) :
    (RedName.sum.op a b).toNat = (a.toNat + b.toNat) % 2 ^ w ∧
    (RedName.prod.op a b).toNat = (a.toNat * b.toNat) % 2 ^ w ∧
    (RedName.land.op a b = 1 ∧ (a ≠ 0 ∧ b ≠ 0) ∨ RedName.land.op a b = 0 ∧ (a = 0 ∨ b = 0)) ∧
    (RedName.lor.op a b = 1 ∧ (a ≠ 0 ∨ b ≠ 0) ∨ RedName.lor.op a b = 0 ∧ (a = 0 ∧ b = 0)) ∧
    (∀ i, (RedName.band.op a b).getLsbD i = (a.getLsbD i && b.getLsbD i)) ∧
    (∀ i, (RedName.bor.op a b).getLsbD i = (a.getLsbD i || b.getLsbD i)) ∧
    (∀ i, (Reducer.bxor a b).getLsbD i = (a.getLsbD i ^^ b.getLsbD i)) ∧
    (RedName.min.op a b).toNat = Nat.min a.toNat b.toNat ∧
    (RedName.max.op a b).toNat = Nat.max a.toNat b.toNat := by
  refine ⟨by simp [RedName.op, Reducer.sum], by simp [RedName.op, Reducer.prod], ?_, ?_,
    fun i => by simp [RedName.op, Reducer.band], fun i => by simp [RedName.op, Reducer.bor],
    fun i => by simp [Reducer.bxor], ?_, ?_⟩
  · simp only [RedName.op, Reducer.land]
    split
    · rename_i h; exact .inl ⟨rfl, h⟩
    · rename_i h; refine .inr ⟨rfl, ?_⟩
      by_cases ha : a = 0
      · exact .inl ha
      · refine .inr ?_; by_contra hb; exact h ⟨ha, hb⟩
  · simp only [RedName.op, Reducer.lor]
    split
    · rename_i h; exact .inl ⟨rfl, h⟩
    · rename_i h; refine .inr ⟨rfl, ?_, ?_⟩
      · by_contra ha; exact h (.inl ha)
      · by_contra hb; exact h (.inr hb)
  · simp only [RedName.op, Reducer.min, BitVec.lt_def]
    show _ = min a.toNat b.toNat
    split <;> omega
  · simp only [RedName.op, Reducer.max, GT.gt, BitVec.lt_def]
    show _ = max a.toNat b.toNat
    split <;> omega

/-- `bxor` is a commutative monoid with neutral element zero (it has no Kokkos
counterpart). -/
theorem C24_bxor (w : Nat) : CommMonoidOn (T := BitVec w) (fun _ => True) Reducer.bxor 0 :=
  ⟨⟨trivial, fun _ _ _ _ => trivial, fun a b c _ _ _ => BitVec.xor_assoc a b c, fun _ _ => BitVec.zero_xor,
    fun _ _ => BitVec.xor_zero⟩, fun a b _ _ => BitVec.xor_comm a b⟩

/-- `sum` and `prod` over any commutative semiring (in particular exact reals). -/
theorem C24_semiring (R : Type) [CommSemiring R] :
    CommMonoidOn (T := R) (fun _ => True) Reducer.sum 0 ∧ CommMonoidOn (T := R) (fun _ => True) Reducer.prod 1 :=
  ⟨⟨⟨trivial, fun _ _ _ _ => trivial, fun a b c _ _ _ => add_assoc a b c, fun a _ => zero_add a,
    fun a _ => add_zero a⟩, fun a b _ _ => add_comm a b⟩,
   ⟨⟨trivial, fun _ _ _ _ => trivial, fun a b c _ _ _ => mul_assoc a b c, fun a _ => one_mul a,
    fun a _ => mul_one a⟩, fun a b _ _ => mul_comm a b⟩⟩

section order
variable {R : Type} [LinearOrder R]

private theorem rmin (a b : R) : Reducer.min a b = a ⊓ b := by
  unfold Reducer.min; split
  · rename_i h; exact (inf_eq_left.2 h.le).symm
  · rename_i h; exact (inf_eq_right.2 (not_lt.1 h)).symm

private theorem rmax (a b : R) : Reducer.max a b = a ⊔ b := by
  unfold Reducer.max; split
  · rename_i h; exact (sup_eq_left.2 (le_of_lt h)).symm
  · rename_i h; exact (sup_eq_right.2 (not_lt.1 h)).symm

/-- `min` and `max` over any linear order, on the values between the bounds of the type
(signed integers, reals with infinities): the neutral element of `min` is the upper bound
and that of `max` the lower bound. -/
theorem C24_order (lowest highest : R) (h : lowest ≤ highest) :
    CommMonoidOn (fun x : R => lowest ≤ x ∧ x ≤ highest) Reducer.min highest ∧
    CommMonoidOn (fun x : R => lowest ≤ x ∧ x ≤ highest) Reducer.max lowest := by
  refine ⟨⟨⟨⟨h, le_rfl⟩, ?_, ?_, ?_, ?_⟩, ?_⟩, ⟨⟨⟨le_rfl, h⟩, ?_, ?_, ?_, ?_⟩, ?_⟩⟩
  · intro a b ha hb; rw [rmin]; exact ⟨le_inf ha.1 hb.1, inf_le_left.trans ha.2⟩
  · intro a b c _ _ _; simp only [rmin, inf_assoc]
  · intro a ha; rw [rmin]; exact inf_eq_right.2 ha.2
  · intro a ha; rw [rmin]; exact inf_eq_left.2 ha.2
  · intro a b _ _; simp only [rmin, inf_comm]
  · intro a b ha hb; rw [rmax]; exact ⟨ha.1.trans le_sup_left, sup_le ha.2 hb.2⟩
  · intro a b c _ _ _; simp only [rmax, sup_assoc]
  · intro a ha; rw [rmax]; exact sup_eq_right.2 ha.1
  · intro a ha; rw [rmax]; exact sup_eq_left.2 ha.1
  · intro a b _ _; simp only [rmax, sup_comm]

/-- `minmax` on pairs, with neutral element (upper bound, lower bound). -/
theorem C24_minmax (lowest highest : R) (h : lowest ≤ highest) :
    CommMonoidOn (fun x : R × R => (lowest ≤ x.1 ∧ x.1 ≤ highest) ∧ (lowest ≤ x.2 ∧ x.2 ≤ highest))
      Reducer.minmax (highest, lowest) := by
  obtain ⟨h1, h2⟩ := C24_order lowest highest h
  have e : ∀ a b : R × R, Reducer.minmax a b = (Reducer.min a.1 b.1, Reducer.max a.2 b.2) := fun _ _ => rfl
  refine ⟨⟨⟨⟨h, le_rfl⟩, ⟨le_rfl, h⟩⟩, ?_, ?_, ?_, ?_⟩, ?_⟩
  · intro a b ha hb; rw [e]; exact ⟨h1.closed _ _ ha.1 hb.1, h2.closed _ _ ha.2 hb.2⟩
  · intro a b c ha hb hc; simp only [e, h1.assoc _ _ _ ha.1 hb.1 hc.1, h2.assoc _ _ _ ha.2 hb.2 hc.2]
  · intro a ha; rw [e]; exact Prod.ext (h1.left _ ha.1) (h2.left _ ha.2)
  · intro a ha; rw [e]; exact Prod.ext (h1.right _ ha.1) (h2.right _ ha.2)
  · intro a b ha hb; simp only [e, h1.comm _ _ ha.1 hb.1, h2.comm _ _ ha.2 hb.2]

end order

/-- On other integers the logical reducers have no neutral element at all: they map every
non-zero value to `1`. -/
theorem C24_logical_no_unit :
    (¬ ∃ e : BitVec 32, ∀ a, Reducer.land e a = a) ∧ (¬ ∃ e : BitVec 32, ∀ a, Reducer.lor e a = a) := by
  constructor
  · rintro ⟨e, h⟩
    have := h 2
    unfold Reducer.land at this
    split at this <;> simp at this
  · rintro ⟨e, h⟩
    have := h 2
    unfold Reducer.lor at this
    split at this <;> simp at this

/-! Non-vacuity. -/
example : RedName.min.op (3 : BitVec 8) 200 = 3 ∧ RedName.land.op (2 : BitVec 8) 4 = 1 ∧
    RedName.prod.op (16 : BitVec 8) 17 = 16 := by decide
example : (-128 : Int) ≤ 127 := by decide

end DDC.Props
