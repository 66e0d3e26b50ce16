import Verif.Lemmas.StridedOps
import Verif.Lemmas.Sparse

/-!
# C11  Random-access iterators of one-dimensional domains (strided and sparse domains)
-/

namespace DDC.Props

open Tup Spec

variable {τ : Type} [DecidableEq τ]

/-- The loop `for (it = begin; it != end; ++it) visit(*it)` on strided iterators,
unrolled at most `fuel` times; the boolean says that the loop ended. -/
def sIterate : Nat → SIter → SIter → List U64 × Bool
  | 0, i, e => ([], i.eq e)
  | fuel + 1, i, e =>
    if i.eq e then ([], true)
    else
      let r := sIterate fuel i.inc e
      (i.value :: r.1, r.2)

private theorem sIterate_eq (n : Nat) (b : U64) (s : I64) (e : U64) (st : I64) (hs : 1 ≤ s.toInt)
    (he : (e.toNat : Int) = b.toNat + n * s.toInt) :
    ∃ l, sIterate n ⟨b, s⟩ ⟨e, st⟩ = (l, true) ∧ l.length = n ∧
      ∀ k : Nat, k < n → ∃ x, l[k]? = some x ∧ (x.toNat : Int) = b.toNat + k * s.toInt := by
  induction n generalizing b with
  | zero =>
    have : b = e := BitVec.eq_of_toNat_eq (by push_cast at he; omega)
    subst this
    exact ⟨[], by simp [sIterate, SIter.eq], rfl, by simp⟩
  | succ n ih =>
    have hx : ((n + 1 : Nat) : Int) * s.toInt = n * s.toInt + s.toInt := by push_cast; ring
    have hnn := Int.mul_nonneg (Int.natCast_nonneg n) (show 0 ≤ s.toInt by omega)
    have hlt := e.isLt
    have hsn := SDom.toNat_of_nonneg (x := s) (by omega)
    have hne : b ≠ e := by rintro rfl; omega
    have hb : ((b + s).toNat : Int) = b.toNat + s.toInt := by
      rw [BitVec.toNat_add]; omega
    obtain ⟨l, h1, h2, h3⟩ := ih (b + s) (by rw [hb]; omega)
    refine ⟨b :: l, ?_, by simp [h2], ?_⟩
    · simp [sIterate, SIter.eq, hne, SIter.inc, h1]
    · intro k hk
      cases k with
      | zero => exact ⟨b, rfl, by simp⟩
      | succ k =>
        obtain ⟨x, x1, x2⟩ := h3 k (by omega)
        refine ⟨x, by simpa using x1, ?_⟩
        rw [x2, hb]; push_cast; ring

/-- Iterating from `begin()` to `end()` of a valid strided domain ends after
`extent()` steps; the k-th visited index is `front + k * stride`, that is
`domain(k)`: exactly the points of the domain, in increasing order. -/
theorem C11_strided_enumerates (t : τ) (b : U64) (n s : I64) (hd : SValid ([(t, (b, n, s))] : SDom τ)) :
    ∃ i j l, SDom.begin ([(t, (b, n, s))] : SDom τ) = .ok i ∧ SDom.end' ([(t, (b, n, s))] : SDom τ) = .ok j ∧
      SDom.size ([(t, (b, n, s))] : SDom τ) = .ok n ∧ sIterate n.toNat i j = (l, true) ∧ l.length = n.toNat ∧
      (∀ k : I64, k.toNat < n.toNat → ∃ x, l[k.toNat]? = some x ∧
        SDom.at' ([(t, (b, n, s))] : SDom τ) [(t, k)] = .ok [(t, x)] ∧
        SDom.index ([(t, (b, n, s))] : SDom τ) k = .ok x) ∧
      l.Pairwise (fun x y => x.toNat < y.toNat) ∧
      (∀ x : U64, x ∈ l ↔ InGrid ([(t, (b, n, s))] : SDom τ) [(t, x)]) := by
  have hg : get t ([(t, (b, n, s))] : SDom τ) = .ok (b, n, s) := by simp
  obtain ⟨v1, v2, v3, v4⟩ := SDom.svalid_get hd hg
  have hnn := SDom.toNat_of_nonneg v1
  have hpos := Int.mul_nonneg v1 (show 0 ≤ s.toInt by omega)
  have hr : Vect.InRange (n.toInt * s.toInt) := by unfold Vect.InRange; omega
  have hmul : sMul n s = .ok (n * s) := by
    rw [sMul, Vect.signedRes_ok hr, SDom.ofInt_mul_toInt]
  have hmi := SDom.toInt_mul_of_range hr
  have hend : ((b + n * s).toNat : Int) = b.toNat + n.toNat * s.toInt := by
    have := SDom.toNat_of_nonneg (x := n * s) (by omega)
    rw [BitVec.toNat_add, hnn]; omega
  obtain ⟨l, l1, l2, l3⟩ := sIterate_eq n.toNat b s (b + n * s) s v2 hend
  refine ⟨⟨b, s⟩, ⟨b + n * s, s⟩, l, rfl, by simp [SDom.end', hmul], ?_, l1, l2, ?_, ?_, ?_⟩
  · simp [SDom.size, SDom.sizeAux, SDom.extents]
  · intro k hk
    obtain ⟨x, x1, x2⟩ := l3 k.toNat hk
    have hki : k.toInt = k.toNat := by
      have h6 := BitVec.toInt_eq_toNat_cond k
      have h7 := BitVec.toInt_eq_toNat_cond n
      split at h6 <;> split at h7 <;> omega
    refine ⟨x, x1, ?_, ?_⟩
    · obtain ⟨e, e1, e2, e3⟩ := SDom.at_ok hd (v := [(t, k)]) rfl (by
        intro q hq
        have : q = t := by simpa using hq
        subst this
        rw [disp_ok (x := k) (by simp), SDom.count_ok hg]; omega)
      rw [e1]; congr 1
      refine ext_get' e2 (by rw [e2]; simp) ?_
      intro q y hy
      have hq : q = t := by simpa [e2] using mem_tags_of_get hy
      subst hq
      have := e3 q (by simp)
      rw [idx_ok hy, SDom.first_ok hg, SDom.step_ok hg, disp_ok (x := k) (by simp), hki, ← x2] at this
      rw [get_cons, if_pos rfl, BitVec.eq_of_toNat_eq (Int.ofNat_inj.1 this)]
    · have h1 := Int.mul_nonneg (show 0 ≤ k.toInt by omega) (show 0 ≤ s.toInt by omega)
      have h2 := Int.mul_le_mul_of_nonneg_right (show k.toInt ≤ n.toInt by omega) (show 0 ≤ s.toInt by omega)
      have hr' : Vect.InRange (k.toInt * s.toInt) := by unfold Vect.InRange; omega
      have hmul' : sMul k s = .ok (k * s) := by
        rw [sMul, Vect.signedRes_ok hr', SDom.ofInt_mul_toInt]
      simp only [SDom.index, SDom.begin, Res.ok_bind, SIter.index, hmul', Res.pure_eq]
      congr 1
      apply BitVec.eq_of_toNat_eq
      have hmi' := SDom.toInt_mul_of_range hr'
      have := SDom.toNat_of_nonneg (x := k * s) (by omega)
      rw [hki] at hmi'
      apply Int.ofNat_inj.1
      rw [x2, BitVec.toNat_add]
      have := x.isLt
      omega
  · rw [List.pairwise_iff_getElem]
    intro i j hi hj hij
    obtain ⟨x, x1, x2⟩ := l3 i (by omega)
    obtain ⟨y, y1, y2⟩ := l3 j (by omega)
    rw [List.getElem?_eq_getElem hi] at x1
    rw [List.getElem?_eq_getElem hj] at y1
    injection x1 with x1; injection y1 with y1
    rw [x1, y1]
    have := Int.mul_lt_mul_of_pos_right (show (i : Int) < j by omega) (show 0 < s.toInt by omega)
    omega
  · intro x
    have hi : InGrid ([(t, (b, n, s))] : SDom τ) [(t, x)] ↔
        ∃ k : Int, 0 ≤ k ∧ k < n.toInt ∧ (x.toNat : Int) = b.toNat + k * s.toInt := by
      simp only [InGrid, tags_cons, tags_nil, List.mem_singleton, forall_eq]
      rw [SDom.onGrid_ok hg, idx_ok (x := x) (by simp)]
    rw [hi, List.mem_iff_getElem?]
    constructor
    · rintro ⟨k, hk⟩
      have hlt : k < n.toNat := by rw [← l2]; exact (List.getElem?_eq_some_iff.1 hk).1
      obtain ⟨y, y1, y2⟩ := l3 k hlt
      rw [hk] at y1; injection y1 with y1; subst y1
      exact ⟨k, by omega, by omega, y2⟩
    · rintro ⟨k, k1, k2, k3⟩
      obtain ⟨y, y1, y2⟩ := l3 k.toNat (by omega)
      refine ⟨k.toNat, ?_⟩
      rw [y1]; congr 1
      apply BitVec.eq_of_toNat_eq
      rw [Int.toNat_of_nonneg k1] at y2
      omega

/-- Difference of strided iterators: the difference of the *indices* (for values that
are not `2^63` apart).  Missing with respect to the claim: it is not divided by the
stride, so it is the number of steps only for stride 1. -/
theorem C11_strided_difference_partial (i j : SIter) :
    (-2 ^ 63 < (i.value.toNat : Int) - j.value.toNat →
      (i.value.toNat : Int) - j.value.toNat < 2 ^ 63 →
      ∃ x, SIter.diff i j = .ok x ∧ x.toInt = (i.value.toNat : Int) - j.value.toNat) ∧
    (SIter.lt i j = true ↔ i.value.toNat < j.value.toNat) ∧
    (SIter.eq i j = true ↔ i.value.toNat = j.value.toNat) := by
  refine ⟨?_, ?_, ?_⟩
  · intro h1 h2
    simp only [SIter.diff, gt_iff_lt, BitVec.lt_def]
    by_cases hlt : i.value.toNat < j.value.toNat
    · rw [if_pos hlt]
      simp only [sNeg]
      rw [Dom.toInt_sub_of_le (by omega) (by omega), Vect.signedRes_ok (by unfold Vect.InRange; omega)]
      exact ⟨_, rfl, by rw [toInt_ofInt_of_range (by omega)]; omega⟩
    · rw [if_neg hlt]
      exact ⟨_, rfl, Dom.toInt_sub_of_le (by omega) (by omega)⟩
  · simp [SIter.lt, BitVec.lt_def]
  · simp [SIter.eq, BitVec.toNat_eq]

/-- The claim "`end() - begin() == size()`" is false for strided domains: 3 points with
stride 2 give a difference of 6. -/
theorem C11_strided_difference_wrong :
    ∃ (d : SDom Char) (i j : SIter), SValid d ∧ SDom.begin d = .ok i ∧ SDom.end' d = .ok j ∧
      SDom.size d = .ok 3 ∧ SIter.diff j i = .ok 6 := by
  refine ⟨[('x', (1, 3, 2))], ⟨1, 2⟩, ⟨7, 2⟩, ⟨by simp, ?_⟩, rfl, by decide, by decide, by decide⟩
  intro q hq
  have : q = 'x' := by simpa using hq
  subst this
  decide

/-- `it + n`, `it - n` move by `n * stride` modulo `2^64`, undo each other and keep the
stride; `n = INT64_MIN` is undefined. -/
theorem C11_strided_advance (i : SIter) (n : I64) :
    (n.toInt = -2 ^ 63 → i.addAssign n = .ub ∧ i.subAssign n = .ub) ∧
    (n.toInt ≠ -2 ^ 63 →
      ∃ j k, i.addAssign n = .ok j ∧ i.subAssign n = .ok k ∧ j.stride = i.stride ∧ k.stride = i.stride ∧
        ((j.value.toNat : Int) = (i.value.toNat + n.toInt * i.stride.toInt) % 2 ^ 64) ∧
        ((k.value.toNat : Int) = (i.value.toNat - n.toInt * i.stride.toInt) % 2 ^ 64) ∧
        j.subAssign n = .ok i ∧ k.addAssign n = .ok i ∧
        (Vect.InRange (n.toInt * i.stride.toInt) → i.index n = .ok j.value)) := by
  constructor
  · intro h
    have : sNeg n = .ub := Vect.signedRes_ub (by unfold Vect.InRange; omega)
    have h0 : ¬ (0 ≤ n.toInt) := by omega
    simp [SIter.addAssign, SIter.subAssign, h0, this]
  · intro h
    have hneg : sNeg n = .ok (-n) := by
      have hr := toInt_range n
      simp only [sNeg]
      rw [Vect.signedRes_ok (by unfold Vect.InRange; omega)]
      congr 1
      apply BitVec.eq_of_toInt_eq
      rw [BitVec.toInt_ofInt, BitVec.toInt_neg]
    have hadd : ∀ i : SIter, i.addAssign n = .ok ⟨i.value + n * i.stride, i.stride⟩ := by
      intro i
      by_cases h0 : 0 ≤ n.toInt
      · simp [SIter.addAssign, h0]
      · simp [SIter.addAssign, h0, hneg, BitVec.neg_mul, BitVec.sub_eq_add_neg, BitVec.neg_neg]
    have hsub : ∀ i : SIter, i.subAssign n = .ok ⟨i.value - n * i.stride, i.stride⟩ := by
      intro i
      by_cases h0 : 0 ≤ n.toInt
      · simp [SIter.subAssign, h0]
      · simp [SIter.subAssign, h0, hneg, BitVec.neg_mul, BitVec.sub_eq_add_neg]
    have hp : ((n * i.stride).toNat : Int) = (n.toInt * i.stride.toInt) % 2 ^ 64 := by
      rw [← SDom.ofInt_mul_toInt, BitVec.toNat_ofInt]
      have := Int.emod_nonneg (n.toInt * i.stride.toInt) (show ((2 ^ 64 : Nat) : Int) ≠ 0 by decide)
      omega
    refine ⟨_, _, hadd i, hsub i, rfl, rfl, ?_, ?_, ?_, ?_, ?_⟩
    · simp only [BitVec.toNat_add]; omega
    · simp only [BitVec.toNat_sub]
      have := (n * i.stride).isLt
      have := i.value.isLt
      omega
    · rw [hsub]; simp [BitVec.add_sub_cancel]
    · rw [hadd]; simp [BitVec.sub_add_cancel]
    · intro hr
      simp only [SIter.index, sMul]
      rw [Vect.signedRes_ok hr, SDom.ofInt_mul_toInt]
      rfl

/-- `++it` is `it += 1`, `--it` is `it -= 1`, and they undo each other. -/
theorem C11_strided_inc_dec (i : SIter) :
    i.addAssign 1 = .ok i.inc ∧ i.subAssign 1 = .ok i.dec ∧ i.inc.dec = i ∧ i.dec.inc = i := by
  have h1 : (1 : I64) * i.stride = i.stride := by simp
  have h0 : (1 : I64).toInt ≥ 0 := by decide
  refine ⟨?_, ?_, ?_, ?_⟩
  · simp only [SIter.addAssign, h0, if_true, SIter.inc, h1]
  · simp only [SIter.subAssign, h0, if_true, SIter.dec, h1]
  · simp [SIter.inc, SIter.dec, BitVec.add_sub_cancel]
  · simp [SIter.inc, SIter.dec, BitVec.sub_add_cancel]

/-- Sparse domains: iteration visits the stored indices in order, `size()` of them, and
`domain[n]` is the n-th visited index, `domain(n)`. -/
theorem C11_sparse_enumerates (t : τ) (l : List U64) (hl : l.length < 2 ^ 63) :
    SpDom.visited ([(t, l)] : SpDom τ) = .ok l ∧ (SpDom.size ([(t, l)] : SpDom τ)).toNat = l.length ∧
    ∀ n : U64, (∀ x, l[n.toNat]? = some x → SpDom.index ([(t, l)] : SpDom τ) n = .ok x ∧
        SpDom.at' ([(t, l)] : SpDom τ) [(t, n)] = .ok [(t, x)]) ∧
      (l.length ≤ n.toNat → SpDom.index ([(t, l)] : SpDom τ) n = .ub) := by
  refine ⟨rfl, ?_, fun n => ⟨?_, ?_⟩⟩
  · have h1 : ∀ x : U64, 1 * x = x := fun x => by simp
    simp only [SpDom.size, vals, List.map_cons, List.map_nil, SpDom.sizeAux, h1, BitVec.toNat_ofNat]
    omega
  · intro x hx
    refine ⟨SpDom.read_some hx, ?_⟩
    obtain ⟨e, e1, e2, e3⟩ := SpDom.at_ok (d := ([(t, l)] : SpDom τ)) (by simp) (v := [(t, n)]) rfl (by
      intro q m hm
      have hq : q = t := by simpa using mem_tags_of_get hm
      subst hq
      have : l = m := by simpa using hm
      subst this
      exact ⟨n, by simp, (List.getElem?_eq_some_iff.1 hx).1⟩)
    rw [e1]; congr 1
    refine ext_get' e2 (by rw [e2]; simp) ?_
    intro q y hy
    have hq : q = t := by simpa [e2] using mem_tags_of_get hy
    subst hq
    obtain ⟨z, z1, z2⟩ := e3 q l n (by simp) (by simp)
    rw [hy] at z1; injection z1 with z1; subst z1
    rw [hx] at z2; injection z2 with z2; subst z2
    simp
  · intro h
    simp [SpDom.index, SpDom.read, List.getElem?_eq_none h]

/-! Non-vacuity. -/
example : sIterate 3 ⟨5, 2⟩ ⟨11, 2⟩ = ([5, 7, 9], true) ∧ SIter.addAssign ⟨5, 2⟩ (-2) = .ok ⟨1, 2⟩ ∧
    SpDom.index ([('x', [2, 5, 11])] : SpDom Char) 2 = .ok 11 := by decide
example : SValid ([('x', (5, 3, 2))] : SDom Char) := by
  refine ⟨by simp, ?_⟩
  intro q hq
  have : q = 'x' := by simpa using hq
  subst this
  decide

end DDC.Props
