import Verif.Model.Sampling
import Verif.Lemmas.DomainOps
import Mathlib.Tactic.Ring
import Mathlib.Tactic.FieldSimp
import Mathlib.Tactic.Linarith

/-!
# One-dimensional domains
-/

namespace DDC

set_option linter.unusedSectionVars false

variable {τ : Type} [DecidableEq τ]

namespace One

theorem get (t : τ) {α : Type} (x : α) : Tup.get t [(t, x)] = .ok x := by simp

theorem take (t : τ) {α : Type} (x : α) : Tup.take t [[(t, x)]] = .ok [(t, x)] := by
  simp [Tup.take, TypeSeq.contains, TypeSeq.present]

theorem sub (t : τ) (i j : U64) : Elem.sub [(t, i)] [(t, j)] = .ok [(t, i - j)] := by
  simp [Elem.sub, Tup.zipVals, TypeSeq.same, TypeSeq.contains, TypeSeq.present]

theorem addVec (t : τ) (x : U64) (y : I64) :
    Elem.addVec [(t, x)] [(t, y)] = .ok [(t, x + y)] := by
  simp [Elem.addVec, Tup.opAssign, Tup.modify]

theorem ofSize (t : τ) (b : U64) (n : I64) :
    Dom.ofSize [(t, b)] [(t, n)] = .ok [(t, (b, b + n))] := by
  simp [Dom.ofSize, addVec, Dom.mk, TypeSeq.isUnique, Tup.zipVals, TypeSeq.remove_eq]

theorem back (t : τ) (b e : U64) : Dom.back [(t, (b, e))] = .ok [(t, e - 1)] := by
  simp [Dom.back, Dom.fin, Tup.select, Tup.ofTuples, Elem.subInt, take]

theorem extents (t : τ) (b e : U64) : Dom.extents [(t, (b, e))] = .ok [(t, e - b)] := by
  rw [Dom.extents]; exact sub t e b

theorem add (t : τ) (x y : I64) :
    Vect.add [(t, x)] [(t, y)] = (sAdd x y >>= fun r => .ok [(t, r)]) := by
  simp [Vect.add, Vect.addAssign, Tup.opAssign, Tup.modify]

theorem vsub (t : τ) (x y : I64) :
    Vect.sub [(t, x)] [(t, y)] = (sSub x y >>= fun r => .ok [(t, r)]) := by
  simp [Vect.sub, Vect.subAssign, Tup.opAssign, Tup.modify]

theorem toInt_ofNat {k : Nat} (h : k < 2 ^ 63) : (BitVec.ofNat 64 k : I64).toInt = k := by
  rw [BitVec.toInt_eq_toNat_cond, BitVec.toNat_ofNat]
  split <;> omega

theorem sAdd_nat {x y : Nat} (h : x + y < 2 ^ 63) :
    sAdd (BitVec.ofNat 64 x) (BitVec.ofNat 64 y) = .ok (BitVec.ofNat 64 (x + y)) := by
  rw [sAdd, toInt_ofNat (by omega), toInt_ofNat (by omega), signedRes,
    if_pos ⟨by omega, by omega⟩]
  congr 1

theorem sSub_nat {x y : Nat} (h : x < 2 ^ 63) (hy : y ≤ x) :
    sSub (BitVec.ofNat 64 x) (BitVec.ofNat 64 y) = .ok (BitVec.ofNat 64 (x - y)) := by
  rw [sSub, toInt_ofNat (by omega), toInt_ofNat (by omega), signedRes,
    if_pos ⟨by omega, by omega⟩, ← Int.ofNat_sub hy]
  congr 1

theorem add_nat (t : τ) {x y : Nat} (h : x + y < 2 ^ 63) :
    Vect.add [(t, BitVec.ofNat 64 x)] [(t, BitVec.ofNat 64 y)] = .ok [(t, BitVec.ofNat 64 (x + y))] := by
  rw [add, sAdd_nat h]; rfl

theorem vsub_nat (t : τ) {x y : Nat} (h : x < 2 ^ 63) (hy : y ≤ x) :
    Vect.sub [(t, BitVec.ofNat 64 x)] [(t, BitVec.ofNat 64 y)] = .ok [(t, BitVec.ofNat 64 (x - y))] := by
  rw [vsub, sSub_nat h hy]; rfl

theorem subInt_nat (t : τ) {x : Nat} (h : x < 2 ^ 63) (h1 : 1 ≤ x) :
    Vect.subInt [(t, BitVec.ofNat 64 x)] 1 = .ok [(t, BitVec.ofNat 64 (x - 1))] := by
  have : (1 : I64) = BitVec.ofNat 64 1 := rfl
  rw [Vect.subInt, this, sSub_nat h h1]; rfl

/-- The interval `[x, y)` of one dimension. -/
def seg (t : τ) (x y : Nat) : Dom τ := [(t, (BitVec.ofNat 64 x, BitVec.ofNat 64 y))]

/-- The element with index `x`. -/
def el (t : τ) (x : Nat) : Elem τ := [(t, BitVec.ofNat 64 x)]

/-- The displacement `x`. -/
def vec (t : τ) (x : Nat) : Vect τ := [(t, BitVec.ofNat 64 x)]

theorem ofNat_sub {x y : Nat} (h : y ≤ x) :
    BitVec.ofNat 64 x - BitVec.ofNat 64 y = BitVec.ofNat 64 (x - y) := by
  apply BitVec.eq_of_toNat_eq
  simp only [BitVec.toNat_sub, BitVec.toNat_ofNat]
  omega

theorem ofSize_nat (t : τ) (x n : Nat) : Dom.ofSize (el t x) (vec t n) = .ok (seg t x (x + n)) := by
  rw [el, vec, ofSize, seg, BitVec.ofNat_add]

theorem extents_nat (t : τ) {x y : Nat} (h : x ≤ y) : Dom.extents (seg t x y) = .ok (vec t (y - x)) := by
  rw [seg, extents, vec, ofNat_sub h]

theorem front (t : τ) (x y : Nat) : Dom.front (seg t x y) = el t x := rfl

theorem back_nat (t : τ) {x y : Nat} (h : 1 ≤ y) : Dom.back (seg t x y) = .ok (el t (y - 1)) := by
  have : (1 : U64) = BitVec.ofNat 64 1 := rfl
  rw [seg, back, el, this, ofNat_sub h]

theorem addVec_nat (t : τ) (x n : Nat) : Elem.addVec (el t x) (vec t n) = .ok (el t (x + n)) := by
  rw [el, vec, addVec, el, BitVec.ofNat_add]

theorem takeFirst (t : τ) (x y n : Nat) :
    Dom.takeFirst (seg t x y) (vec t n) = .ok (seg t x (x + n)) := by
  rw [Dom.takeFirst, front, ofSize_nat]

theorem takeLast (t : τ) {x y n : Nat} (h : x + n ≤ y) (hy : y - x < 2 ^ 63) :
    Dom.takeLast (seg t x y) (vec t n) = .ok (seg t (y - n) y) := by
  rw [Dom.takeLast, extents_nat t (by omega)]
  simp only [Res.ok_bind, vec]
  rw [vsub_nat t hy (by omega)]
  simp only [Res.ok_bind]
  rw [front, ← vec, addVec_nat, ← vec]
  simp only [Res.ok_bind]
  rw [ofSize_nat]
  congr 2 <;> omega

theorem remove (t : τ) {x y n m : Nat} (h : x + n + m ≤ y) (hy : y - x < 2 ^ 63) :
    Dom.remove (seg t x y) (vec t n) (vec t m) = .ok (seg t (x + n) (y - m)) := by
  rw [Dom.remove, front, addVec_nat, Res.ok_bind, extents_nat t (by omega), Res.ok_bind, vec,
    vec, vsub_nat t hy (by omega), Res.ok_bind, vec, vsub_nat t (by omega) (by omega), Res.ok_bind,
    ← vec, ofSize_nat]
  congr 2; omega

theorem sub_nat (t : τ) {x y : Nat} (h : y ≤ x) : Elem.sub (el t x) (el t y) = .ok (vec t (x - y)) := by
  rw [el, el, sub, vec, ofNat_sub h]

end One

end DDC
