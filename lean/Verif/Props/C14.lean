import Verif.Lemmas.Sparse

/-!
# C14  SparseDiscreteDomain membership by binary search is exact
-/

namespace DDC.Props

open Tup SpDom Spec

variable {τ : Type} [DecidableEq τ]

/-- The search ends and never reads outside of the array, for every array (sorted or
not) and every value. -/
theorem C14_search_total (l : List U64) (v : U64) :
    ∃ p c, SpDom.lowerBound l v = .ok p ∧ p ≤ l.length ∧ SpDom.binarySearch l v = .ok c := by
  obtain ⟨p, h1, _, h3⟩ := lowerBoundLoop_total l v 0 l.length (by omega)
  have h1' : SpDom.lowerBound l v = .ok p := h1
  refine ⟨p, if h : p = l.length then false else !decide (v < l[p]'(by omega)), h1', by omega, ?_⟩
  by_cases hp : p = l.length
  · simp [binarySearch, h1', hp]
  · have hlt : p < l.length := by omega
    simp [binarySearch, h1', hp, hlt]

/-- In a strictly increasing array the search answers membership, and the returned
position splits the array into the smaller values and the others. -/
theorem C14_search (l : List U64) (hs : l.Pairwise (fun x y => x.toNat < y.toNat)) (v : U64) :
    ∃ p c, SpDom.lowerBound l v = .ok p ∧ SpDom.binarySearch l v = .ok c ∧ (c = true ↔ v ∈ l) ∧
      (∀ x ∈ l.take p, x.toNat < v.toNat) ∧ (∀ x ∈ l.drop p, v.toNat ≤ x.toNat) ∧
      (∀ i, l[i]? = some v → p = i) := by
  obtain ⟨p, h1, h2, h3, h4⟩ := lowerBound_spec hs v
  obtain ⟨c, g1, g2⟩ := binarySearch_spec hs v
  refine ⟨p, c, h1, g1, g2, ?_, ?_, ?_⟩
  · intro x hx
    obtain ⟨i, hi⟩ := List.mem_iff_getElem?.1 hx
    rw [List.getElem?_take] at hi
    split at hi
    · exact h3 i x (by assumption) hi
    · cases hi
  · intro x hx
    obtain ⟨i, hi⟩ := List.mem_iff_getElem?.1 hx
    rw [List.getElem?_drop] at hi
    exact h4 (p + i) x (by omega) hi
  · intro i hi
    have := lowerBound_eq hs hi
    rw [h1] at this; injection this

/-- `contains(e...)`, for any grouping of the coordinates, is `true` exactly when every
coordinate occurs in the list of its dimension. -/
theorem C14_contains (d : SpDom τ) (hv : SpValid d) (es : List (Elem τ))
    (hp : (es.flatMap tags).Perm (tags d)) :
    ∃ c, SpDom.contains d es = .ok c ∧
      (c = true ↔ ∀ e ∈ es, ∀ q x, get q e = .ok x → ∃ l, get q d = .ok l ∧ x ∈ l) := by
  obtain ⟨e, h1, h2, h3⟩ := ofTuples_ok (Dom.ownedOnce_of_perm hv.1 hp)
  obtain ⟨c, g1, g2⟩ := SpDom.contains_ok hv hp h1
  refine ⟨c, g1, g2.trans ?_⟩
  constructor
  · intro h x hx q y hy
    have hq : q ∈ tags d := hp.mem_iff.1 (List.mem_flatMap.2 ⟨x, hx, mem_tags_of_get hy⟩)
    obtain ⟨l, hl⟩ := get_ok_iff_mem_tags.2 hq
    obtain ⟨z, hz, hzl⟩ := h q l hl
    rw [h3 q hq x hx (mem_tags_of_get hy), hy] at hz
    injection hz with hz; subst hz
    exact ⟨l, hl, hzl⟩
  · intro h q l hl
    have hq := mem_tags_of_get hl
    obtain ⟨x, hx, hqx⟩ := List.mem_flatMap.1 (hp.mem_iff.2 hq)
    obtain ⟨y, hy⟩ := get_ok_iff_mem_tags.2 hqx
    obtain ⟨l', hl', hyl⟩ := h x hx q y hy
    rw [hl] at hl'; injection hl' with hl'; subst hl'
    exact ⟨y, by rw [h3 q hq x hx hqx, hy], hyl⟩

/-- `distance_from_front(e...)` of a contained element gives the position of each
coordinate in the list of its dimension; it aborts for other elements. -/
theorem C14_distance (d : SpDom τ) (hv : SpValid d) (es : List (Elem τ))
    (hp : (es.flatMap tags).Perm (tags d)) :
    (SpDom.contains d es = .ok true →
      ∃ v, SpDom.distanceFromFront d es = .ok v ∧ tags v = tags d ∧
        ∀ e ∈ es, ∀ q x, get q e = .ok x → ∃ l, get q d = .ok l ∧ 0 ≤ disp q v ∧
          l[(disp q v).toNat]? = some x) ∧
    (SpDom.contains d es = .ok false → SpDom.distanceFromFront d es = .abort) := by
  have hl : d.length = (es.map List.length).sum := by
    rw [← length_tags d]; exact Dom.sum_length_of_perm hp
  obtain ⟨e, h1, h2, h3⟩ := ofTuples_ok (Dom.ownedOnce_of_perm hv.1 hp)
  obtain ⟨c, g1, g2⟩ := SpDom.contains_ok hv hp h1
  constructor
  · intro hc
    rw [hc] at g1; injection g1 with g1
    obtain ⟨v, v1, v2, v3⟩ := SpDom.distance_ok hv hp h1 (g2.1 g1.symm)
    refine ⟨v, v1, v2, ?_⟩
    intro x hx q y hy
    have hq : q ∈ tags d := hp.mem_iff.1 (List.mem_flatMap.2 ⟨x, hx, mem_tags_of_get hy⟩)
    obtain ⟨l, hl⟩ := get_ok_iff_mem_tags.2 hq
    obtain ⟨a, b, ha, hb, hab, hlb⟩ := v3 q l hl
    rw [h3 q hq x hx (mem_tags_of_get hy), hy] at hb
    injection hb with hb; subst hb
    refine ⟨l, hl, ?_, ?_⟩
    · rw [disp_ok ha, hab]; omega
    · rw [disp_ok ha, hab]; simpa using hlb
  · intro hc
    simp only [SpDom.distanceFromFront, hl, decide_true, Res.guardIll_true, Res.ok_bind, hc,
      Res.guardAbort_false, Res.abort_bind]

/-! Non-vacuity: a domain and a regrouped element which meet the hypotheses. -/
example : SpValid ([('x', [2, 5, 11]), ('y', [0, 7])] : SpDom Char) := by
  refine ⟨by decide, ?_⟩
  intro q l h
  simp only [get_cons, get_nil] at h
  split at h
  · injection h with h; subst h
    exact ⟨by simp [Sorted], by decide⟩
  · split at h
    · injection h with h; subst h
      exact ⟨by simp [Sorted], by decide⟩
    · cases h
example : ((([[('y', 7)], [('x', 5)]] : List (Elem Char)).flatMap tags)).Perm
    (tags ([('x', [2, 5, 11]), ('y', [0, 7])] : SpDom Char)) := by decide

end DDC.Props
