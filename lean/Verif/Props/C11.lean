import Verif.Lemmas.DomainOps

/-!
# C11  Random-access iterators of one-dimensional domains (contiguous domains)

The iterators of strided and sparse domains are in `C11b.lean`.
-/

namespace DDC.Props

open Tup Dom Spec

variable {τ : Type} [DecidableEq τ]

/-- The loop `for (it = begin; it != end; ++it) visit(*it)`, unrolled at most
`fuel` times; the boolean says that the loop ended. -/
def iterate : Nat → DomIter → DomIter → List U64 × Bool
  | 0, i, e => ([], i.eq e)
  | fuel + 1, i, e =>
    if i.eq e then ([], true)
    else
      let r := iterate fuel i.inc e
      (i.value :: r.1, r.2)

private theorem iterate_eq {b e : U64} (h : b.toNat ≤ e.toNat) (fuel : Nat)
    (hf : e.toNat - b.toNat ≤ fuel) : iterate fuel ⟨b⟩ ⟨e⟩ = (axis b e, true) := by
  induction fuel generalizing b with
  | zero =>
    have : b = e := BitVec.eq_of_toNat_eq (by omega)
    subst this
    simp [iterate, DomIter.eq, axis]
  | succ n ih =>
    by_cases hbe : b = e
    · subst hbe
      simp [iterate, DomIter.eq, axis]
    · have hne : b.toNat ≠ e.toNat := fun h' => hbe (BitVec.eq_of_toNat_eq h')
      have hb := e.isLt
      have h1 : (b + 1).toNat = b.toNat + 1 := by
        rw [BitVec.toNat_add]
        have e1 : (1 : U64).toNat = 1 := rfl
        rw [e1]; omega
      have := ih (b := b + 1) (by omega) (by omega)
      simp only [iterate, DomIter.eq, hbe, decide_false, Bool.false_eq_true, if_false, DomIter.inc,
        this, Prod.mk.injEq, and_true]
      have hsplit : e.toNat - b.toNat = (e.toNat - (b + 1).toNat) + 1 := by omega
      simp only [axis, hsplit, List.range_succ_eq_map, List.map_cons, List.map_map]
      congr 1
      · simp
      · refine List.map_congr_left ?_
        intro i _
        simp only [Function.comp_apply, Nat.succ_eq_add_one]
        rw [BitVec.add_assoc]
        congr 1
        rw [BitVec.add_comm]
        simp [BitVec.ofNat_add]

/-- Iterating from `begin()` to `end()` ends after `size()` steps and visits
exactly the contained indices, each once, in increasing order. -/
theorem C11_enumerates (t : τ) (b e : U64) (hd : Valid ([(t, (b, e))] : Dom τ)) :
    ∃ i j l, Dom.begin ([(t, (b, e))] : Dom τ) = .ok i ∧ end' ([(t, (b, e))] : Dom τ) = .ok j ∧
      (∃ s, size ([(t, (b, e))] : Dom τ) = .ok s ∧ l.length = s.toNat ∧ iterate s.toNat i j = (l, true)) ∧
      l.Pairwise (fun x y => x.toNat < y.toNat) ∧
      (∀ x, x ∈ l ↔ contains ([(t, (b, e))] : Dom τ) [[(t, x)]] = .ok true) := by
  have hg : get t ([(t, (b, e))] : Dom τ) = .ok (b, e) := by simp
  have hv := valid_get hd hg
  have hle := e.isLt
  refine ⟨⟨b⟩, ⟨e⟩, axis b e, rfl, rfl, ⟨e - b, ?_, ?_, ?_⟩, axis_sorted b e, ?_⟩
  · simp [size, sizeAux, extent_ok hg]
  · rw [length_axis, BitVec.toNat_sub]; omega
  · refine iterate_eq hv.1 _ ?_
    rw [BitVec.toNat_sub]; omega
  · intro x
    obtain ⟨c, g1, g2⟩ := contains_one hd.1 (e := [(t, x)]) (by simp [SameTags])
    rw [mem_axis, g1]
    simp only [Res.ok.injEq]
    rw [g2]
    simp [InBox, lo, hi, idx]

/-- `begin()[n] = domain[n] = domain(n)`, the element `front + n`. -/
theorem C11_index (t : τ) (b e : U64) (n : U64) :
    ∃ i, Dom.begin ([(t, (b, e))] : Dom τ) = .ok i ∧ index ([(t, (b, e))] : Dom τ) n = .ok (i.index n) ∧
      at' ([(t, (b, e))] : Dom τ) [(t, n)] = .ok [(t, i.index n)] ∧ (i.index n) = b + n := by
  refine ⟨⟨b⟩, rfl, rfl, ?_, rfl⟩
  obtain ⟨r, h1, h2, h3⟩ := at_ok (d := ([(t, (b, e))] : Dom τ)) (by simp) (v := [(t, n)]) rfl
  rw [h1]; congr 1
  refine ext_get (by rw [h2]; rfl) (by rw [h2]; simp) ?_
  intro q hq
  rw [h2] at hq
  have : q = t := by simpa using hq
  subst this
  rw [h3 q b e n (by simp) (by simp)]
  simp [DomIter.index]

/-- Distance of two iterators is the exact difference of their positions whenever
it is at most `2^63 - 1` in magnitude (always true inside a valid domain), and is
undefined behaviour at `-2^63`; comparisons agree with the order of the positions. -/
theorem C11_difference (i j : DomIter) :
    (-2 ^ 63 < (i.value.toNat : Int) - j.value.toNat →
      (i.value.toNat : Int) - j.value.toNat < 2 ^ 63 →
      ∃ x, DomIter.diff i j = .ok x ∧ x.toInt = (i.value.toNat : Int) - j.value.toNat) ∧
    ((i.value.toNat : Int) - j.value.toNat = -2 ^ 63 → DomIter.diff i j = .ub) ∧
    (DomIter.lt i j = true ↔ i.value.toNat < j.value.toNat) ∧
    (DomIter.gt i j = true ↔ j.value.toNat < i.value.toNat) ∧
    (DomIter.le i j = true ↔ i.value.toNat ≤ j.value.toNat) ∧
    (DomIter.ge i j = true ↔ j.value.toNat ≤ i.value.toNat) ∧
    (DomIter.eq i j = true ↔ i.value.toNat = j.value.toNat) := by
  refine ⟨?_, ?_, ?_, ?_, ?_, ?_, ?_⟩
  · intro h1 h2
    simp only [DomIter.diff, gt_iff_lt, BitVec.lt_def]
    by_cases hlt : i.value.toNat < j.value.toNat
    · rw [if_pos hlt]
      simp only [sNeg]
      rw [toInt_sub_of_le (by omega) (by omega), Vect.signedRes_ok (by unfold Vect.InRange; omega)]
      exact ⟨_, rfl, by rw [toInt_ofInt_of_range (by omega)]; omega⟩
    · rw [if_neg hlt]
      exact ⟨_, rfl, toInt_sub_of_le (by omega) (by omega)⟩
  · intro h
    simp only [DomIter.diff, gt_iff_lt, BitVec.lt_def]
    rw [if_pos (by omega)]
    have : (j.value - i.value).toInt = -2 ^ 63 := by
      rw [BitVec.toInt_eq_toNat_cond, BitVec.toNat_sub]
      have := i.value.isLt; have := j.value.isLt
      split <;> omega
    simp only [sNeg, this]
    exact Vect.signedRes_ub (by unfold Vect.InRange; omega)
  · simp [DomIter.lt, BitVec.lt_def]
  · simp [DomIter.gt, DomIter.lt, BitVec.lt_def]
  · simp [DomIter.le, DomIter.lt, BitVec.lt_def]
  · simp [DomIter.ge, DomIter.lt, BitVec.lt_def]
  · simp [DomIter.eq, BitVec.toNat_eq]

/-- `end() - begin()` is `size()` for a valid domain. -/
theorem C11_end_begin (t : τ) (b e : U64) (hd : Valid ([(t, (b, e))] : Dom τ)) :
    ∃ i j x, Dom.begin ([(t, (b, e))] : Dom τ) = .ok i ∧ end' ([(t, (b, e))] : Dom τ) = .ok j ∧
      DomIter.diff j i = .ok x ∧ size ([(t, (b, e))] : Dom τ) = .ok x := by
  have hg : get t ([(t, (b, e))] : Dom τ) = .ok (b, e) := by simp
  have hv := valid_get hd hg
  refine ⟨⟨b⟩, ⟨e⟩, e - b, rfl, rfl, ?_, by simp [size, sizeAux, extent_ok hg]⟩
  simp only [DomIter.diff, gt_iff_lt, BitVec.lt_def]
  rw [if_neg (by omega)]

/-- `it + n` and `it - n` move by exactly `n` positions (modulo `2^64`), for every
`n` but the most negative one (undefined behaviour); `(it + n) - n = it`,
`(it + n) - it = n` and `it[n] = *(it + n)`. -/
theorem C11_advance (i : DomIter) (n : I64) :
    (n.toInt = -2 ^ 63 → i.addAssign n = .ub ∧ i.subAssign n = .ub) ∧
    (n.toInt ≠ -2 ^ 63 →
      ∃ j k, i.addAssign n = .ok j ∧ i.subAssign n = .ok k ∧ j.value = i.index n ∧
        ((j.value.toNat : Int) = (i.value.toNat + n.toInt) % 2 ^ 64) ∧
        ((k.value.toNat : Int) = (i.value.toNat - n.toInt) % 2 ^ 64) ∧
        j.subAssign n = .ok i ∧ k.addAssign n = .ok i ∧
        (0 ≤ i.value.toNat + n.toInt → i.value.toNat + n.toInt < 2 ^ 64 → DomIter.diff j i = .ok n)) := by
  have hneg : n.toInt ≠ -2 ^ 63 → sNeg n = .ok (-n) := by
    intro h
    have hr := toInt_range n
    simp only [sNeg]
    rw [Vect.signedRes_ok (by unfold Vect.InRange; omega)]
    congr 1
    apply BitVec.eq_of_toInt_eq
    rw [BitVec.toInt_ofInt, BitVec.toInt_neg]
  constructor
  · intro h
    have : sNeg n = .ub := Vect.signedRes_ub (by unfold Vect.InRange; omega)
    have h0 : ¬ (0 ≤ n.toInt) := by omega
    simp [DomIter.addAssign, DomIter.subAssign, h0, this]
  · intro h
    have hadd : ∀ i : DomIter, i.addAssign n = .ok ⟨i.value + n⟩ := by
      intro i
      by_cases h0 : 0 ≤ n.toInt
      · simp [DomIter.addAssign, h0]
      · simp [DomIter.addAssign, h0, hneg h]
    have hsub : ∀ i : DomIter, i.subAssign n = .ok ⟨i.value - n⟩ := by
      intro i
      by_cases h0 : 0 ≤ n.toInt
      · simp [DomIter.subAssign, h0]
      · simp [DomIter.subAssign, h0, hneg h, BitVec.sub_eq_add_neg]
    have hi := i.value.isLt
    have hn := n.isLt
    have h6 := BitVec.toInt_eq_toNat_cond n
    have kadd : (((i.value + n).toNat : Nat) : Int) = (i.value.toNat + n.toInt) % 2 ^ 64 := by
      rw [BitVec.toNat_add]; split at h6 <;> omega
    refine ⟨⟨i.value + n⟩, ⟨i.value - n⟩, hadd i, hsub i, rfl, kadd, ?_, ?_, ?_, ?_⟩
    · simp only
      rw [BitVec.toNat_sub]; split at h6 <;> omega
    · rw [hsub, BitVec.add_sub_cancel]
    · rw [hadd, BitVec.sub_add_cancel]
    · intro h1 h2
      have hr := toInt_range n
      obtain ⟨x, x1, x2⟩ := (C11_difference ⟨i.value + n⟩ i).1 (by simp only; omega) (by simp only; omega)
      rw [x1]; congr 1
      apply BitVec.eq_of_toInt_eq
      simp only at x2
      omega

/-- Increments and decrements, prefix and postfix. -/
theorem C11_inc_dec (i : DomIter) :
    (∃ j, i.addAssign 1 = .ok j ∧ j = i.inc) ∧ (∃ j, i.subAssign 1 = .ok j ∧ j = i.dec) ∧
    i.inc.dec = i ∧ i.dec.inc = i ∧ i.postInc = (i, i.inc) ∧ i.postDec = (i, i.dec) := by
  refine ⟨⟨_, rfl, rfl⟩, ⟨_, rfl, rfl⟩, ?_, ?_, rfl, rfl⟩
  · simp [DomIter.inc, DomIter.dec, BitVec.add_sub_cancel]
  · simp [DomIter.inc, DomIter.dec, BitVec.sub_add_cancel]

/-! Non-vacuity. -/
example : iterate 3 ⟨5⟩ ⟨8⟩ = ([5, 6, 7], true) ∧ DomIter.diff ⟨5⟩ ⟨8⟩ = .ok (-3) ∧
    DomIter.diff ⟨8⟩ ⟨5⟩ = .ok 3 ∧ DomIter.diff ⟨0⟩ ⟨0x8000000000000000⟩ = .ub := by decide

end DDC.Props
