import Verif.Model.Points
import Verif.Model.ForEach
import Verif.Lemmas.NUBS
import Verif.Lemmas.UBS
import Verif.Lemmas.Integrals
import Verif.Lemmas.ForEach
import Mathlib.Algebra.BigOperators.Field
import Mathlib.Algebra.BigOperators.Intervals

/-!
# Loops of the interpolation points
-/

namespace DDC

open One

set_option linter.unusedSectionVars false

/-- `hostForEach1` is the general `host_for_each`. -/
theorem hostForEach1_eq {σ : Type} (d : Dom Unit) (hd : Tup.tags d = [()]) (f : Elem Unit → σ → Res σ)
    (s : σ) : Support.forEach d.support f s = Res.noexcept (hostForEach1 d f s) := by
  obtain ⟨b, e, rfl⟩ : ∃ b e, d = [((), (b, e))] := by
    match d, hd with
    | [((), (b, e))], _ => exact ⟨b, e, rfl⟩
  rw [Support.forEach, hostForEach1]
  congr 1
  rw [show (Dom.support [((), (b, e))]).extents = Dom.extents [((), (b, e))] from rfl, One.extents,
    Res.ok_bind, Res.ok_bind]
  rw [show Vect.value [((), e - b)] = .ok (e - b) from rfl, Res.ok_bind,
    show Tup.vals [((), e - b)] = [e - b] from rfl, Support.forEachSerial, Support.loop_zero]
  generalize (e - b).toInt.toNat = n
  have key : ∀ (n lo : Nat) (s : σ), (List.range' lo n).foldlM (fun s (j : Nat) =>
      Support.forEachSerial (Dom.support [((), (b, e))]) f [] ([] ++ [BitVec.ofInt 64 (j : Int)]) s) s =
      forLoop (fun i s => do
        let e ← Dom.at' [((), (b, e))] (ve1 (BitVec.ofNat 64 i))
        f e s) lo n s := by
    intro n
    induction n with
    | zero => intro lo s; rfl
    | succ n ih =>
      intro lo s
      rw [List.range'_succ, List.foldlM_cons, forLoop]
      simp only [ih]
      rw [show Support.forEachSerial (Dom.support [((), (b, e))]) f [] ([] ++ [BitVec.ofInt 64 (lo : Int)]) s
        = (Dom.at' [((), (b, e))] (ve1 (BitVec.ofNat 64 lo)) >>= fun e => f e s) by
          rw [Support.forEachSerial, Support.leaf, BitVec.ofInt_natCast]; rfl]
  rw [List.range_eq_range', key]

theorem hostForEach1_seg {σ : Type} {x y : Nat} (h : x ≤ y) (hy : y - x < 2 ^ 63)
    (f : Elem Unit → σ → Res σ) (s : σ) :
    hostForEach1 (seg () x y) f s = forLoop (fun i => f (el () (x + i))) 0 (y - x) s := by
  have e : (fun (i : Nat) (s : σ) => do
      let e ← Dom.at' (seg () x y) (ve1 (BitVec.ofNat 64 i))
      f e s) = fun i => f (el () (x + i)) := by
    funext i s
    rw [show Dom.at' (seg () x y) (ve1 (BitVec.ofNat 64 i)) = Elem.addVec (el () x) (vec () i) from rfl,
      addVec_nat, Res.ok_bind]
  rw [hostForEach1, extents_nat () h, Res.ok_bind,
    show Vect.value (vec () (y - x)) = .ok (BitVec.ofNat 64 (y - x)) from rfl, Res.ok_bind, e,
    toInt_ofNat hy, Int.toNat_natCast]

/-- A domain whose size is negative is not visited. -/
theorem hostForEach1_neg {σ : Type} {x y : Nat} (h : y < x) (hx : x - y < 2 ^ 63)
    (f : Elem Unit → σ → Res σ) (s : σ) : hostForEach1 (seg () x y) f s = .ok s := by
  have e : (BitVec.ofNat 64 y - BitVec.ofNat 64 x : I64).toInt.toNat = 0 := by
    obtain ⟨d, rfl⟩ : ∃ d, x = y + d := ⟨x - y, by omega⟩
    have : (BitVec.ofNat 64 y - BitVec.ofNat 64 (y + d) : I64) = - BitVec.ofNat 64 d := by
      rw [BitVec.ofNat_add, ← BitVec.sub_sub]; simp
    rw [this, BitVec.toInt_neg, One.toInt_ofNat (by omega)]
    simp only [Int.bmod]
    omega
  rw [hostForEach1, seg, extents, Res.ok_bind,
    show Vect.value [((), BitVec.ofNat 64 y - BitVec.ofNat 64 x)] =
      .ok (BitVec.ofNat 64 y - BitVec.ofNat 64 x) from rfl, Res.ok_bind, e]
  rfl

theorem indexOf_nat {x y : Nat} (h : y ≤ x) (hx : x < 2 ^ 64) : indexOf (el () x) (el () y) = .ok (x - y) := by
  rw [indexOf, sub_nat () h, Res.ok_bind, show Vect.value (vec () (x - y)) =
    .ok (BitVec.ofNat 64 (x - y)) from rfl, Res.ok_bind, BitVec.toNat_ofNat, Nat.mod_eq_of_lt (by omega)]
  rfl

section

variable {K : Type} [Field K] [LinearOrder K]

theorem Arr.set_set (a : Arr K) (i : Nat) (v w : K) : (a.set i v).set i w = a.set i w := by
  simp only [Arr.set]; congr 1; funext j; split <;> rfl

theorem Arr.addTo_ok {a : Arr K} {i : Nat} (h : i < a.size) {v : K} (hv : a.val i = some v) (x : K) :
    a.addTo i x = .ok (a.set i (v + x)) := by
  rw [Arr.addTo, Arr.rd_ok h hv, Res.ok_bind, Arr.wr_ok h]

theorem Arr.divBy_ok {a : Arr K} {i : Nat} (h : i < a.size) {v : K} (hv : a.val i = some v) (x : K) :
    a.divBy i x = .ok (a.set i (v / x)) := by
  rw [Arr.divBy, Arr.rd_ok h hv, Res.ok_bind, Arr.wr_ok h]

/-- A loop which adds to one entry. -/
theorem addLoop_ok {f : Nat → Arr K → Res (Arr K)} {g : Nat → K} {i m : Nat}
    (hf : ∀ k a, k < m → f k a = a.addTo i (g k)) (a : Arr K) (hi : i < a.size) (v : K) :
    forLoop f 0 m (a.set i v) = .ok (a.set i (v + ∑ k ∈ Finset.range m, g k)) := by
  obtain ⟨s', e, h⟩ := forLoop_inv (f := f)
    (fun k s => s = a.set i (v + ∑ j ∈ Finset.range k, g j)) m 0 (a.set i v) (by simp) (by
      rintro k s - hk rfl
      refine ⟨_, ?_, rfl⟩
      rw [hf k _ (by omega), Arr.addTo_ok (by simpa using hi) (by rw [Arr.set_val, if_pos rfl]),
        Arr.set_set, Finset.sum_range_succ, add_assoc])
  rw [e, h, Nat.zero_add]

/-- A loop which writes distinct entries. -/
theorem setLoop_ok {f : Nat → Arr K → Res (Arr K)} {pos : Nat → Nat} {v : Nat → K} {m N : Nat}
    (hf : ∀ k a, k < m → a.size = N → f k a = .ok (a.set (pos k) (v k)))
    (hp : ∀ i j, i < j → j < m → pos i ≠ pos j) (a : Arr K) (ha : a.size = N) :
    ∃ a', forLoop f 0 m a = .ok a' ∧ a'.size = N ∧ (∀ i, i < m → a'.val (pos i) = some (v i)) ∧
      ∀ j, (∀ i, i < m → pos i ≠ j) → a'.val j = a.val j := by
  obtain ⟨a', e, h1, h2, h3⟩ := forLoop_inv (f := f)
    (fun k s => s.size = N ∧ (∀ i, i < k → s.val (pos i) = some (v i)) ∧
      ∀ j, (∀ i, i < k → pos i ≠ j) → s.val j = a.val j) m 0 a
    ⟨ha, fun i hi => absurd hi (by omega), fun j _ => rfl⟩ (by
      rintro k s - hk ⟨h1, h2, h3⟩
      refine ⟨_, hf k s (by omega) h1, h1, fun i hi => ?_, fun j hj => ?_⟩
      · rw [Arr.set_val]
        by_cases hik : i = k
        · rw [hik, if_pos rfl]
        · rw [if_neg (hp i k (by omega) (by omega)), h2 i (by omega)]
      · rw [Arr.set_val, if_neg (fun h => hj k (by omega) h.symm), h3 j (fun i hi => hj i (by omega))])
  rw [Nat.zero_add] at h2 h3
  exact ⟨a', e, h1, h2, h3⟩

end

end DDC
