import Verif.Lemmas.Mdspan

/-!
# submdspan
-/

namespace DDC

open Spec

/-- Indices in the original mdspan of the indices `js` of a sub-mdspan. -/
def Spec.joinIdx : List Slicer → List U64 → List U64
  | .index i :: ss, js => i :: joinIdx ss js
  | .range f _ :: ss, j :: js => (f + j) :: joinIdx ss js
  | .full :: ss, j :: js => j :: joinIdx ss js
  | _, _ => []

namespace MDSpan

/-- Slicers meeting the preconditions. -/
abbrev SliceOK (ds : List (U64 × U64)) (ss : List Slicer) : Prop :=
  List.Forall₂ (fun d sl => sliceValid d.1 sl = true) ds ss

theorem all_valid {ds : List (U64 × U64)} {ss : List Slicer} (h : SliceOK ds ss) :
    ((ds.zip ss).all (fun p => sliceValid p.1.1 p.2)) = true := by
  induction h with
  | nil => rfl
  | cons h _ ih => simp [h, ih]

/-- No lower bound is at its extent. -/
theorem firsts_inExt {ds : List (U64 × U64)} {ss : List Slicer} (h : SliceOK ds ss)
    (ho : ((ds.zip ss).any (fun p => decide (sliceFirst p.2 = p.1.1))) = false) :
    InExt ds (ss.map sliceFirst) := by
  induction h with
  | nil => exact .nil
  | @cons d sl ds ss h hs ih =>
    simp only [List.zip_cons_cons, List.any_cons, Bool.or_eq_false_iff, decide_eq_false_iff_not] at ho
    refine .cons ?_ (ih ho.2)
    have h1 := ho.1
    cases sl with
    | index i => simpa [sliceValid, sliceFirst] using h
    | range f l =>
      simp only [sliceValid, Bool.and_eq_true, decide_eq_true_eq] at h
      simp only [sliceFirst] at h1 ⊢
      have : f.toNat ≤ l.toNat := h.1
      have : l.toNat ≤ d.1.toNat := h.2
      have : f.toNat ≠ d.1.toNat := fun h0 => h1 (BitVec.eq_of_toNat_eq h0)
      show f.toNat < d.1.toNat
      omega
    | full =>
      simp only [sliceFirst] at h1 ⊢
      show (0 : U64).toNat < d.1.toNat
      have : (0 : U64).toNat ≠ d.1.toNat := fun h0 => h1 (BitVec.eq_of_toNat_eq h0)
      have h00 : (0 : U64).toNat = 0 := rfl
      omega

/-- When a lower bound is at its extent the sub-mdspan is empty. -/
theorem out_empty {ds : List (U64 × U64)} {ss : List Slicer} (h : SliceOK ds ss)
    (ho : ((ds.zip ss).any (fun p => decide (sliceFirst p.2 = p.1.1))) = true) :
    ∃ d ∈ subDims ds ss, d.1 = 0 := by
  induction h with
  | nil => simp at ho
  | @cons d sl ds ss h hs ih =>
    obtain ⟨n, s⟩ := d
    simp only [List.zip_cons_cons, List.any_cons, Bool.or_eq_true, decide_eq_true_eq] at ho
    cases sl with
    | index i =>
      simp only [subDims]
      rcases ho with ho | ho
      · simp only [sliceFirst] at ho
        simp only [sliceValid, decide_eq_true_eq] at h
        subst ho
        exact absurd h (by simp)
      · exact ih ho
    | range f l =>
      simp only [subDims]
      rcases ho with ho | ho
      · simp only [sliceFirst] at ho
        simp only [sliceValid, Bool.and_eq_true, decide_eq_true_eq] at h
        refine ⟨_, List.mem_cons_self, ?_⟩
        have h1 : f.toNat ≤ l.toNat := h.1
        have h2 : l.toNat ≤ n.toNat := h.2
        have : f = l := BitVec.eq_of_toNat_eq (by rw [ho] at h1 ⊢; omega)
        subst this
        simp
      · obtain ⟨e, he, h0⟩ := ih ho
        exact ⟨e, List.mem_cons_of_mem _ he, h0⟩
    | full =>
      simp only [subDims]
      rcases ho with ho | ho
      · exact ⟨_, List.mem_cons_self, by simpa [sliceFirst] using ho.symm⟩
      · obtain ⟨e, he, h0⟩ := ih ho
        exact ⟨e, List.mem_cons_of_mem _ he, h0⟩

theorem sub_reach {ds : List (U64 × U64)} {ss : List Slicer} (h : SliceOK ds ss)
    (hi : InExt ds (ss.map sliceFirst)) (hne : ∀ d ∈ subDims ds ss, d.1 ≠ 0) :
    offset ds (ss.map sliceFirst) + reach (subDims ds ss) ≤ reach ds := by
  induction h with
  | nil => simp [offset, reach, subDims]
  | @cons d sl ds ss h hs ih =>
    obtain ⟨n, s⟩ := d
    cases hi with
    | cons hi0 hi =>
      simp only [List.map_cons, offset, reach]
      have hi0' : (sliceFirst sl).toNat < n.toNat := hi0
      cases sl with
      | index i =>
        simp only [subDims] at hne ⊢
        have := ih hi hne
        have : (sliceFirst (.index i)).toNat * s.toNat ≤ (n.toNat - 1) * s.toNat :=
          Nat.mul_le_mul_right _ (by omega)
        omega
      | range f l =>
        simp only [subDims] at hne ⊢
        rw [List.forall_mem_cons] at hne
        have := ih hi hne.2
        simp only [sliceValid, Bool.and_eq_true, decide_eq_true_eq] at h
        have h1 : f.toNat ≤ l.toNat := h.1
        have h2 : l.toNat ≤ n.toNat := h.2
        have h3 : (l - f).toNat = l.toNat - f.toNat := by
          rw [BitVec.toNat_sub]; have := l.isLt; have := f.isLt; omega
        have h4 : (l - f).toNat ≠ 0 := fun h0 => hne.1 (BitVec.eq_of_toNat_eq h0)
        simp only [reach, sliceFirst, h3]
        have : f.toNat * s.toNat + (l.toNat - f.toNat - 1) * s.toNat ≤ (n.toNat - 1) * s.toNat := by
          rw [← Nat.add_mul]; exact Nat.mul_le_mul_right _ (by omega)
        omega
      | full =>
        simp only [subDims] at hne ⊢
        rw [List.forall_mem_cons] at hne
        have := ih hi hne.2
        have h0 : (sliceFirst Slicer.full).toNat = 0 := rfl
        simp only [reach, h0, Nat.zero_mul]
        omega

theorem sub_offset {ds : List (U64 × U64)} {ss : List Slicer} (h : SliceOK ds ss) {js : List U64}
    (hj : InExt (subDims ds ss) js) :
    InExt ds (joinIdx ss js) ∧
    offset ds (joinIdx ss js) = offset ds (ss.map sliceFirst) + offset (subDims ds ss) js := by
  induction h generalizing js with
  | nil =>
    cases hj
    exact ⟨.nil, rfl⟩
  | @cons d sl ds ss h hs ih =>
    obtain ⟨n, s⟩ := d
    cases sl with
    | index i =>
      simp only [subDims] at hj ⊢
      obtain ⟨a, b⟩ := ih hj
      refine ⟨.cons (by simpa [sliceValid] using h) a, ?_⟩
      simp only [joinIdx, List.map_cons, offset, sliceFirst, b]; omega
    | range f l =>
      simp only [subDims] at hj ⊢
      cases hj with
      | @cons _ j _ js hj0 hj =>
        obtain ⟨a, b⟩ := ih hj
        simp only [sliceValid, Bool.and_eq_true, decide_eq_true_eq] at h
        have h1 : f.toNat ≤ l.toNat := h.1
        have h2 : l.toNat ≤ n.toNat := h.2
        have h3 : (l - f).toNat = l.toNat - f.toNat := by
          rw [BitVec.toNat_sub]; have := l.isLt; have := f.isLt; omega
        have h4 : j.toNat < (l - f).toNat := hj0
        have h5 : (f + j).toNat = f.toNat + j.toNat := by
          rw [BitVec.toNat_add]; have := n.isLt; omega
        refine ⟨.cons (show (f + j).toNat < n.toNat by omega) a, ?_⟩
        simp only [joinIdx, List.map_cons, offset, sliceFirst, b, h5]; ring
    | full =>
      simp only [subDims] at hj ⊢
      cases hj with
      | @cons _ j _ js hj0 hj =>
        obtain ⟨a, b⟩ := ih hj
        refine ⟨.cons hj0 a, ?_⟩
        have h0 : (sliceFirst Slicer.full).toNat = 0 := rfl
        simp only [joinIdx, List.map_cons, offset, b, h0]; omega

/-- `submdspan` under its preconditions. -/
theorem sub_ok {m : MDSpan} {ss : List Slicer} (hf : Fits m) (h : SliceOK m.dims ss) :
    ∃ m', m.sub ss = .ok m' ∧ m'.cells = m.cells ∧ m'.dims = subDims m.dims ss ∧ Fits m' ∧
      ∀ js, InExt m'.dims js → InExt m.dims (joinIdx ss js) ∧
        m'.off + offset m'.dims js = m.off + offset m.dims (joinIdx ss js) := by
  have hl : m.dims.length = ss.length := h.length_eq
  cases ho : (m.dims.zip ss).any (fun p => decide (sliceFirst p.2 = p.1.1)) with
  | true =>
    obtain ⟨d, hd, h0⟩ := out_empty h ho
    have hcell : m.off + (requiredSpan m.dims).toNat ≤ m.cells := by
      by_cases hne : ∀ d ∈ m.dims, d.1 ≠ 0
      · obtain ⟨h1, h2⟩ := hf.inside hne
        rw [requiredSpan_eq h2, if_pos hne, BitVec.toNat_ofNat, Nat.mod_eq_of_lt h2]; omega
      · rw [requiredSpan_zero hne]
        have := hf.start
        simpa using this
    refine ⟨⟨m.off + (requiredSpan m.dims).toNat, subDims m.dims ss, m.cells⟩, ?_, rfl, rfl, ⟨hcell, ?_⟩, ?_⟩
    · simp only [sub, hl, decide_true, Res.guardIll_true, Res.ok_bind, all_valid h, if_true, ho, Res.pure_eq]
      rw [if_pos hcell]
    · intro hne; exact absurd h0 (hne d hd)
    · intro js hj; exact absurd h0 (inExt_pos hj d hd)
  | false =>
    have hi := firsts_inExt h ho
    obtain ⟨h1, h2⟩ := hf.inside (inExt_pos hi)
    obtain ⟨s1, s2⟩ := sliceOffset_eq hl hi (by omega)
    have hcell : m.off + (sliceOffset m.dims ss).toNat ≤ m.cells := by omega
    refine ⟨⟨m.off + (sliceOffset m.dims ss).toNat, subDims m.dims ss, m.cells⟩, ?_, rfl, rfl, ⟨hcell, ?_⟩, ?_⟩
    · simp only [sub, hl, decide_true, Res.guardIll_true, Res.ok_bind, all_valid h, if_true, ho,
        Bool.false_eq_true, if_false, Res.pure_eq]
      rw [if_pos hcell]
    · intro hne
      have := sub_reach h hi hne
      simp only [s1]
      omega
    · intro js hj
      obtain ⟨a, b⟩ := sub_offset h hj
      refine ⟨a, ?_⟩
      simp only [s1, b]
      omega

end MDSpan
end DDC
