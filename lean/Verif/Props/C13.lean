import Verif.Lemmas.StridedOps

/-!
# C13  StridedDiscreteDomain membership equals enumeration
-/

namespace DDC.Props

open Tup SDom Spec

variable {τ : Type} [DecidableEq τ]

/-- `contains(e...)`, for any grouping of the coordinates, is `true` exactly for the
elements `front + k * stride` with `0 ≤ k < extent` along every dimension, provided
every dimension is non-empty, or its front is at least `stride - 1`. -/
theorem C13_contains_partial (d : SDom τ) (hv : SValid d) (hs : ∀ q ∈ tags d, SafeAxis q d)
    (es : List (Elem τ)) (hp : (es.flatMap tags).Perm (tags d)) :
    ∃ c, SDom.contains d es = .ok c ∧
      (c = true ↔ ∀ q ∈ tags d, ∀ e ∈ es, q ∈ tags e →
        ∃ k : Int, 0 ≤ k ∧ k < count q d ∧ (idx q e : Int) = first q d + k * step q d) := by
  obtain ⟨e, h1, h2, h3⟩ := ofTuples_ok (Dom.ownedOnce_of_perm hv.1 hp)
  obtain ⟨c, g1, g2⟩ := SDom.contains_ok hv hs hp h1
  refine ⟨c, g1, g2.trans ?_⟩
  constructor
  · intro h q hq x hx hqx
    have := h q hq
    simpa only [OnGrid, idx, h3 q hq x hx hqx] using this
  · intro h q hq
    obtain ⟨x, hx, hqx⟩ := List.mem_flatMap.1 (hp.mem_iff.2 hq)
    have := h q hq x hx hqx
    simpa only [OnGrid, idx, h3 q hq x hx hqx] using this

/-- The excluded case is wrong in the code: an empty one-dimensional domain whose
front is smaller than `stride - 1` claims to contain its front (although its size
is 0), for every such front and stride. -/
theorem C13_empty_contains_front (t : τ) (b : U64) (s : I64) (hs : (b.toNat : Int) + 1 < s.toInt) :
    SDom.contains ([(t, (b, 0, s))] : SDom τ) [[(t, b)]] = .ok true ∧
    SDom.empty ([(t, (b, 0, s))] : SDom τ) = .ok true := by
  constructor
  · have hsr := toInt_range s
    have e1 : (1 : I64).toInt = 1 := rfl
    have hm : sSub 0 1 = .ok (-1 : I64) := by decide
    have hr : Vect.InRange ((-1 : I64).toInt * s.toInt) := by
      have : (-1 : I64).toInt = -1 := by decide
      rw [this]; unfold Vect.InRange; omega
    have hmul : sMul (-1) s = .ok ((-1 : I64) * s) := by
      rw [sMul, Vect.signedRes_ok hr, ofInt_mul_toInt]
    have hpi : ((-1 : I64) * s).toInt = - s.toInt := by
      rw [toInt_mul_of_range hr]
      have : (-1 : I64).toInt = -1 := by decide
      rw [this]; omega
    have h6 := BitVec.toInt_eq_toNat_cond ((-1 : I64) * s)
    have hl := ((-1 : I64) * s).isLt
    have e1n : (1 : U64).toNat = 1 := rfl
    have hbl := b.isLt
    have hbound : ((b + (-1 : I64) * s + 1).toNat : Int) = 2 ^ 64 + b.toNat - s.toInt + 1 := by
      rw [BitVec.toNat_add, BitVec.toNat_add, e1n]
      split at h6 <;> omega
    have hlt : b < b + (-1 : I64) * s + 1 := by rw [BitVec.lt_def]; omega
    have hs0 : s ≠ 0 := by rintro rfl; have : (0 : I64).toInt = 0 := rfl; omega
    have hc : contains1d b b 0 s = .ok true := by
      simp only [contains1d, ge_iff_le, BitVec.le_refl, not_true, if_false, hm, hmul, Res.ok_bind, hlt, hs0,
        Res.pure_eq, BitVec.sub_self]
      congr 1
    have hc' : contains1d b b 0#64 s = .ok true := hc
    simp [SDom.contains, ofTuples, take_singleton, vals, containsLoop, hc']
  · have hz : ∀ x : U64, x * 0#64 = 0#64 := fun x => by simp
    simp [SDom.empty, SDom.size, sizeAux, extents]

/-- `size()` is the product of the extents, modulo `2^64`. -/
theorem C13_size (d : SDom τ) (hv : SValid d) :
    ∃ s, SDom.size d = .ok s ∧ s.toNat = ((tags d).map (fun q => (count q d).toNat)).prod % 2 ^ 64 :=
  SDom.size_ok d hv

/-- `front()` and `back()` are the first and last points of the progression along
every dimension; both are contained when all dimensions are non-empty. -/
theorem C13_front_back (d : SDom τ) (hv : SValid d) (hne : ∀ q ∈ tags d, 1 ≤ count q d) :
    ∃ e, SDom.back d = .ok e ∧ tags e = tags d ∧ tags (SDom.front d) = tags d ∧
      (∀ q ∈ tags d, idx q (SDom.front d) = first q d ∧
        (idx q e : Int) = first q d + (count q d - 1) * step q d) ∧
      SDom.contains d [SDom.front d] = .ok true ∧ SDom.contains d [e] = .ok true := by
  obtain ⟨e, h1, h2, h3⟩ := SDom.back_ok d hv
  have hf : ∀ q ∈ tags d, idx q (SDom.front d) = first q d := by
    intro q hq
    obtain ⟨⟨b, n, s⟩, h⟩ := get_ok_iff_mem_tags.2 hq
    rw [idx_ok (get_front_ok h), first_ok h]
  have hsafe : ∀ q ∈ tags d, SafeAxis q d := fun q hq => .inl (hne q hq)
  refine ⟨e, h1, h2, tags_front d, fun q hq => ⟨hf q hq, h3 q hq (hne q hq)⟩, ?_, ?_⟩
  · obtain ⟨c, g1, g2⟩ := SDom.contains_one hv hsafe (e := SDom.front d) (by rw [SameTags, tags_front])
    rw [g1]; congr 1; rw [g2]
    intro q hq
    have := hne q hq
    exact ⟨0, by omega, by omega, by rw [hf q hq]; omega⟩
  · obtain ⟨c, g1, g2⟩ := SDom.contains_one hv hsafe (e := e) (by rw [SameTags, h2])
    rw [g1]; congr 1; rw [g2]
    intro q hq
    have := hne q hq
    exact ⟨count q d - 1, by omega, by omega, h3 q hq (hne q hq)⟩

/-- A zero stride divides by zero: `contains(front)` is undefined for every
one-dimensional domain with stride 0. -/
theorem C13_zero_stride (t : τ) (b : U64) (n : I64) (hb : b.toNat + 1 < 2 ^ 64) (hn : n.toInt ≠ -2 ^ 63) :
    SDom.contains ([(t, (b, n, 0))] : SDom τ) [[(t, b)]] = .ub := by
  have hm : sSub n 1 = .ok (n - 1) := by
    have e1 : (1 : I64).toInt = 1 := rfl
    have := toInt_range n
    rw [sSub, e1, Vect.signedRes_ok (by unfold Vect.InRange; omega), ← Vect.ofInt_sub_toInt, e1]
  have hmul : sMul (n - 1) 0 = .ok 0 := by
    simp [sMul, signedRes]
  have hlt : b < b + 0 + 1 := by
    rw [BitVec.lt_def, BitVec.toNat_add, BitVec.toNat_add]
    have e1n : (1 : U64).toNat = 1 := rfl
    have e0n : (0 : U64).toNat = 0 := rfl
    rw [e1n, e0n]; omega
  have hc : contains1d b b n 0 = .ub := by
    simp only [contains1d, ge_iff_le, BitVec.le_refl, not_true, if_false, hm, hmul, Res.ok_bind, hlt, if_true]
  have hc' : contains1d b b n 0#64 = .ub := hc
  simp [SDom.contains, ofTuples, take_singleton, vals, containsLoop, hc']

/-! Non-vacuity. -/
example : SDom.contains ([('x', (3, 4, 5)), ('y', (0, 2, 1))] : SDom Char) [[('y', 1)], [('x', 18)]] = .ok true ∧
    SDom.contains ([('x', (3, 4, 5)), ('y', (0, 2, 1))] : SDom Char) [[('y', 1), ('x', 19)]] = .ok false ∧
    SDom.contains ([('x', (3, 4, 5))] : SDom Char) [[('x', 23)]] = .ok false ∧
    SDom.back ([('x', (3, 4, 5)), ('y', (0, 2, 1))] : SDom Char) = .ok [('x', 18), ('y', 1)] ∧
    SDom.contains ([('x', (0, 0, 2))] : SDom Char) [[('x', 0)]] = .ok true := by decide

end DDC.Props
