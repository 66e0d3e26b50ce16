import Verif.Lemmas.Sparse

/-!
# C07  Positions and elements of a domain are in bijection (sparse domains)
-/

namespace DDC.Props

open Tup SpDom Spec

variable {τ : Type} [DecidableEq τ]

/-- `domain(v)` at a position inside of the extents is the listed index along every
dimension, is contained in the domain, and `distance_from_front` of it is `v`. -/
theorem C07_sparse_position_to_element (d : SpDom τ) (hd : SpValid d) (v : Vect τ) (ht : tags v = tags d)
    (hv : ∀ q l, get q d = .ok l → 0 ≤ disp q v ∧ disp q v < l.length) :
    ∃ e, SpDom.at' d v = .ok e ∧ tags e = tags d ∧ SpDom.contains d [e] = .ok true ∧
      (∀ q l, get q d = .ok l → ∃ y, get q e = .ok y ∧ l[(disp q v).toNat]? = some y) ∧
      SpDom.distanceFromFront d [e] = .ok v := by
  have hx : ∀ q l, get q d = .ok l → ∃ x : I64, get q v = .ok x ∧ disp q v = x.toNat ∧ x.toNat < l.length := by
    intro q l hl
    obtain ⟨x, hx⟩ := get_ok_iff_mem_tags.2 (ht ▸ mem_tags_of_get hl)
    have := hv q l hl
    rw [disp_ok hx] at this ⊢
    have h6 := BitVec.toInt_eq_toNat_cond x
    have := x.isLt
    exact ⟨x, hx, by split at h6 <;> omega, by split at h6 <;> omega⟩
  obtain ⟨e, h1, h2, h3⟩ := SpDom.at_ok hd.1 ht (fun q l hl => by
    obtain ⟨x, a, _, b⟩ := hx q l hl
    exact ⟨x, a, b⟩)
  have h4 : ∀ q l, get q d = .ok l → ∃ y, get q e = .ok y ∧ l[(disp q v).toNat]? = some y := by
    intro q l hl
    obtain ⟨x, a, b, _⟩ := hx q l hl
    obtain ⟨y, y1, y2⟩ := h3 q l x hl a
    exact ⟨y, y1, by rw [b]; exact y2⟩
  have hin : InSparse d e := by
    intro q l hl
    obtain ⟨y, y1, y2⟩ := h4 q l hl
    exact ⟨y, y1, List.mem_iff_getElem?.2 ⟨_, y2⟩⟩
  refine ⟨e, h1, h2, ?_, h4, ?_⟩
  · obtain ⟨c, g1, g2⟩ := SpDom.contains_one hd (e := e) (by rw [SameTags, h2])
    rw [g1]; congr 1; exact g2.2 hin
  · obtain ⟨r, r1, r2, r3⟩ := select_ok (qs := tags d) (x := e) (fun q hq => by rw [h2]; exact hq)
    obtain ⟨w, w1, w2, w3⟩ := SpDom.distance_ok hd (es := [e]) (by simp [h2]) r1
      ((inSparse_congr r3).2 hin)
    rw [w1]; congr 1
    refine ext_get' (by rw [w2, ht]) (by rw [w2]; exact hd.1) ?_
    intro q a ha
    obtain ⟨l, hl⟩ := get_ok_iff_mem_tags.2 (w2 ▸ mem_tags_of_get ha)
    obtain ⟨a', y, g1, g2, _, g4⟩ := w3 q l hl
    rw [ha] at g1; injection g1 with g1; subst g1
    obtain ⟨x, x1, x2, x3⟩ := hx q l hl
    obtain ⟨y', y1, y2⟩ := h3 q l x hl x1
    rw [r3 q (mem_tags_of_get hl), y1] at g2
    injection g2 with g2; subst g2
    rw [x1]; congr 1
    apply BitVec.eq_of_toNat_eq
    rcases Nat.lt_trichotomy x.toNat a.toNat with h | h | h
    · have := sorted_lt (hd.2 q l hl).1 h y2 g4; omega
    · exact h
    · have := sorted_lt (hd.2 q l hl).1 h g4 y2; omega

/-- A position outside of the list of some dimension never yields an element: the read
is out of bounds (undefined behaviour). -/
theorem C07_sparse_out_of_range (d : SpDom τ) (v : Vect τ) (ht : tags v = tags d)
    (q : τ) (l : List U64) (hl : get q d = .ok l) (hlen : l.length < 2 ^ 63)
    (hv : disp q v < 0 ∨ l.length ≤ disp q v) : ∀ e, SpDom.at' d v ≠ .ok e := by
  obtain ⟨x, hx⟩ := get_ok_iff_mem_tags.2 (ht ▸ mem_tags_of_get hl)
  refine SpDom.at_ub ht hl hx ?_
  rw [disp_ok hx] at hv
  have h6 := BitVec.toInt_eq_toNat_cond x
  have := x.isLt
  split at h6 <;> omega

/-- `distance_from_front(e...)` of a contained element, for any grouping of the
coordinates, is a position inside the extents and `domain(...)` of it is the element
(in the tag order of the domain). -/
theorem C07_sparse_element_to_position (d : SpDom τ) (hd : SpValid d) (es : List (Elem τ))
    (hp : (es.flatMap tags).Perm (tags d)) (hc : SpDom.contains d es = .ok true) :
    ∃ v r, SpDom.distanceFromFront d es = .ok v ∧ tags v = tags d ∧
      (∀ q l, get q d = .ok l → 0 ≤ disp q v ∧ disp q v < l.length) ∧
      SpDom.at' d v = .ok r ∧ tags r = tags d ∧ ∀ e ∈ es, ∀ q ∈ tags e, get q r = get q e := by
  obtain ⟨e, h1, h2, h3⟩ := ofTuples_ok (Dom.ownedOnce_of_perm hd.1 hp)
  obtain ⟨c, g1, g2⟩ := SpDom.contains_ok hd hp h1
  rw [hc] at g1; injection g1 with g1
  obtain ⟨v, v1, v2, v3⟩ := SpDom.distance_ok hd hp h1 (g2.1 g1.symm)
  obtain ⟨r, r1, r2, r3⟩ := SpDom.at_ok hd.1 v2 (fun q l hl => by
    obtain ⟨x, y, a, b, c, e⟩ := v3 q l hl
    exact ⟨x, a, (List.getElem?_eq_some_iff.1 e).1⟩)
  refine ⟨v, r, v1, v2, ?_, r1, r2, ?_⟩
  · intro q l hl
    obtain ⟨x, y, a, b, c, e⟩ := v3 q l hl
    have := (List.getElem?_eq_some_iff.1 e).1
    rw [disp_ok a, c]; omega
  · intro w hw q hq
    have hqd : q ∈ tags d := hp.mem_iff.1 (List.mem_flatMap.2 ⟨w, hw, hq⟩)
    obtain ⟨l, hl⟩ := get_ok_iff_mem_tags.2 hqd
    obtain ⟨x, y, a, b, c, e⟩ := v3 q l hl
    obtain ⟨z, z1, z2⟩ := r3 q l x hl a
    rw [e] at z2; injection z2 with z2; subst z2
    rw [z1, ← b, h3 q hqd w hw hq]

/-- `front()` and `back()` are the first and the last listed indices; both are
undefined behaviour as soon as a list is empty. -/
theorem C07_sparse_ends (d : SpDom τ) (hd : (tags d).Nodup) :
    ((∀ q l, get q d = .ok l → l ≠ []) →
      ∃ f b, SpDom.front d = .ok f ∧ SpDom.back d = .ok b ∧ tags f = tags d ∧ tags b = tags d ∧
        ∀ q l, get q d = .ok l → ∃ x y, get q f = .ok x ∧ get q b = .ok y ∧
          l.head? = some x ∧ l.getLast? = some y) ∧
    ((∃ q, get q d = .ok []) → SpDom.front d = .ub ∧ SpDom.back d = .ub) := by
  constructor
  · intro hne
    have hne' : ∀ l ∈ d.vals, l ≠ [] := by
      intro l hl
      obtain ⟨⟨q, l'⟩, hm, rfl⟩ := List.mem_map.1 hl
      exact hne q _ (get_of_mem hd hm)
    have hh : ∀ l : List U64, l ≠ [] → ∃ x, SpDom.read l 0 = .ok x ∧ l.head? = some x := by
      intro l hl
      cases l with
      | nil => exact absurd rfl hl
      | cons x l => exact ⟨x, rfl, rfl⟩
    have hl : ∀ l : List U64, l ≠ [] → ∃ x, SpDom.read l (l.length - 1) = .ok x ∧ l.getLast? = some x := by
      intro l hl
      have hlt : l.length - 1 < l.length := by
        have := List.length_pos_iff.2 hl; omega
      exact ⟨l[l.length - 1], read_some (List.getElem?_eq_getElem hlt),
        by rw [List.getLast?_eq_getElem?]; exact List.getElem?_eq_getElem hlt⟩
    obtain ⟨f, f1, f2, f3⟩ := mapVals_ok (f := fun l => SpDom.read l 0) (x := d)
      (fun l h => by obtain ⟨x, hx, _⟩ := hh l (hne' l h); exact ⟨x, hx⟩)
    obtain ⟨b, b1, b2, b3⟩ := mapVals_ok (f := fun l : List U64 => SpDom.read l (l.length - 1)) (x := d)
      (fun l h => by obtain ⟨x, hx, _⟩ := hl l (hne' l h); exact ⟨x, hx⟩)
    refine ⟨f, b, f1, b1, f2, b2, ?_⟩
    intro q l hq
    obtain ⟨x, x1, x2⟩ := hh l (hne q l hq)
    obtain ⟨y, y1, y2⟩ := hl l (hne q l hq)
    exact ⟨x, y, by rw [f3 q l hq, x1], by rw [b3 q l hq, y1], x2, y2⟩
  · rintro ⟨q, hq⟩
    have key : ∀ (g : List U64 → Nat) (d : SpDom τ), get q d = .ok [] →
        mapVals (fun l => SpDom.read l (g l)) d = .ub := by
      intro g d
      induction d with
      | nil => intro h; simp at h
      | cons p d ih =>
        obtain ⟨t, l⟩ := p
        intro h
        rw [mapVals]
        by_cases hl : g l < l.length
        · rw [read_some (List.getElem?_eq_getElem hl)]
          simp only [get_cons] at h
          split at h
          · injection h with h; subst h; simp at hl
          · simp [ih h]
        · have : SpDom.read l (g l) = .ub := by
            simp [SpDom.read, List.getElem?_eq_none (by omega : l.length ≤ g l)]
          simp [this]
    exact ⟨key (fun _ => 0) d hq, key (fun l => l.length - 1) d hq⟩

/-! Non-vacuity. -/
example : SpDom.at' ([('x', [2, 5, 11]), ('y', [0, 7])] : SpDom Char) [('x', 2), ('y', 0)] = .ok [('x', 11), ('y', 0)] ∧
    SpDom.front ([('x', [2, 5, 11]), ('y', [0, 7])] : SpDom Char) = .ok [('x', 2), ('y', 0)] ∧
    SpDom.back ([('x', [2, 5, 11]), ('y', [0, 7])] : SpDom Char) = .ok [('x', 11), ('y', 7)] := by decide

end DDC.Props
