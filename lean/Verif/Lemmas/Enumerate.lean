import Verif.Lemmas.ForEach

/-!
# Enumerations of supports
-/

namespace DDC

open Tup Spec

variable {τ : Type} [DecidableEq τ]

/-- Strict lexicographic order on elements over the same pack. -/
def Spec.Lex : Elem τ → Elem τ → Prop
  | (_, x) :: e, (_, y) :: f => x.toNat < y.toNat ∨ (x = y ∧ Lex e f)
  | _, _ => False

/-- The elements of a contiguous, strided or sparse domain, listed once each in any order. -/
inductive Spec.Elements : Support τ → List (Elem τ) → Prop
  | contiguous {d : Dom τ} {l : List (Elem τ)} (hd : Valid d) (hl : l.Nodup)
      (h : ∀ e, e ∈ l ↔ tags e = tags d ∧ Dom.contains d [e] = .ok true) : Elements d.support l
  | strided {d : SDom τ} {l : List (Elem τ)} (hd : SValid d) (hl : l.Nodup)
      (h : ∀ e, e ∈ l ↔ tags e = tags d ∧ InGrid d e) : Elements d.support l
  | sparse {d : SpDom τ} {l : List (Elem τ)} (hd : SpValid d) (hl : l.Nodup)
      (h : ∀ e, e ∈ l ↔ tags e = tags d ∧ SpDom.contains d [e] = .ok true) : Elements d.support l

omit [DecidableEq τ] in
theorem pairwise_cart {ax : List (τ × List U64)}
    (h : ∀ a ∈ ax, a.2.Pairwise (fun x y => x.toNat < y.toNat)) : (cart ax).Pairwise Lex := by
  induction ax with
  | nil => simp [cart]
  | cons a ax ih =>
    obtain ⟨t, l⟩ := a
    have ih' := ih (fun a ha => h a (List.mem_cons_of_mem _ ha))
    have hl : l.Pairwise (fun x y => x.toNat < y.toNat) := h (t, l) (by simp)
    simp only [cart]
    clear ih h
    induction l with
    | nil => simp
    | cons x l ihl =>
      rw [List.flatMap_cons, List.pairwise_append]
      rw [List.pairwise_cons] at hl
      refine ⟨?_, ihl hl.2, ?_⟩
      · rw [List.pairwise_map]
        exact ih'.imp (fun h => .inr ⟨rfl, h⟩)
      · intro e he f hf
        obtain ⟨e', _, rfl⟩ := List.mem_map.1 he
        obtain ⟨y, hy, hf⟩ := List.mem_flatMap.1 hf
        obtain ⟨f', _, rfl⟩ := List.mem_map.1 hf
        exact .inl (hl.1 y hy)

theorem mem_cart_get {ax : List (τ × List U64)} (hnd : (tags ax).Nodup) {e : Elem τ} :
    e ∈ cart ax ↔ tags e = tags ax ∧ InSparse ax e := by
  rw [mem_cart]
  refine and_congr_right fun ht => ?_
  replace ht : tags e = tags ax := ht
  induction ax generalizing e with
  | nil =>
    cases e with
    | nil => simp [InSparse]
    | cons p e => simp at ht
  | cons a ax ih =>
    cases e with
    | nil => simp at ht
    | cons p e =>
      obtain ⟨t, l⟩ := a
      obtain ⟨u, x⟩ := p
      simp only [tags_cons, List.cons.injEq] at ht
      obtain ⟨rfl, ht⟩ := ht
      simp only [tags_cons, List.nodup_cons] at hnd
      rw [List.forall₂_cons]
      have ih' := ih hnd.2 ht
      constructor
      · rintro ⟨h1, h2'⟩ q m hm
        have h2 := ih'.1 h2'
        simp only [get_cons] at hm ⊢
        split at hm
        · rename_i hq
          injection hm with hm; subst hm
          exact ⟨x, by simp [hq], h1⟩
        · rename_i hq
          obtain ⟨y, y1, y2⟩ := h2 q m hm
          exact ⟨y, by rw [if_neg hq]; exact y1, y2⟩
      · intro h
        constructor
        · obtain ⟨y, y1, y2⟩ := h u l (by simp)
          simp only [get_cons, if_true, Res.ok.injEq] at y1
          rw [y1]; exact y2
        · refine ih'.2 ?_
          intro q m hm
          have hne : q ≠ u := by rintro rfl; exact hnd.1 (mem_tags_of_get hm)
          obtain ⟨y, y1, y2⟩ := h q m (by simpa [hne] using hm)
          exact ⟨y, by simpa [hne] using y1, y2⟩

theorem nodup_of_lex {l : List (Elem τ)} (h : l.Pairwise Lex) : l.Nodup := by
  rw [List.nodup_iff_pairwise_ne]
  refine h.imp ?_
  rintro e f hef rfl
  clear h l
  induction e with
  | nil => exact hef
  | cons p e ih =>
    obtain ⟨t, x⟩ := p
    simp only [Spec.Lex] at hef
    rcases hef with h | h
    · omega
    · exact ih h.2

omit [DecidableEq τ] in
theorem lex_axes (d : Dom τ) : (cart (axes d)).Pairwise Lex := by
    refine pairwise_cart ?_
    intro a ha
    obtain ⟨⟨t, b, e⟩, hm, rfl⟩ := List.mem_map.1 ha
    exact axis_sorted b e

theorem mem_cart_axes {d : Dom τ} (hd : Valid d) :
    ∀ e, e ∈ cart (axes d) ↔ tags e = tags d ∧ Dom.contains d [e] = .ok true := by
  intro e
  have ht : tags (axes d) = tags d := tags_axes d
  rw [mem_cart_get (by rw [ht]; exact hd.1), ht]
  refine and_congr_right fun he => ?_
  obtain ⟨c, g1, g2⟩ := Dom.contains_one hd.1 (e := e) (by rw [SameTags, he])
  rw [g1]
  simp only [Res.ok.injEq]
  rw [g2]
  constructor
  · intro h q hq
    obtain ⟨⟨b, f⟩, hb⟩ := get_ok_iff_mem_tags.2 hq
    obtain ⟨x, x1, x2⟩ := h q _ (get_axes hb)
    rw [mem_axis] at x2
    rw [lo_ok hb, hi_ok hb, idx_ok x1]; exact x2
  · intro h q l hl
    have hq : q ∈ tags d := ht ▸ mem_tags_of_get hl
    obtain ⟨⟨b, f⟩, hb⟩ := get_ok_iff_mem_tags.2 hq
    rw [get_axes hb] at hl; injection hl with hl; subst hl
    obtain ⟨x, hx⟩ := get_ok_iff_mem_tags.2 (he ▸ hq)
    have := h q hq
    rw [lo_ok hb, hi_ok hb, idx_ok hx] at this
    exact ⟨x, hx, mem_axis.2 this⟩

theorem lex_saxes {d : SDom τ} (hd : SValid d) : (cart (saxes d)).Pairwise Lex := by
    refine pairwise_cart ?_
    intro a ha
    obtain ⟨⟨t, b, n, s⟩, hm, rfl⟩ := List.mem_map.1 ha
    exact progression_sorted hd (get_of_mem hd.1 hm)

theorem mem_cart_saxes {d : SDom τ} (hd : SValid d) :
    ∀ e, e ∈ cart (saxes d) ↔ tags e = tags d ∧ InGrid d e := by
  intro e
  have ht : tags (saxes d) = tags d := tags_saxes d
  rw [mem_cart_get (by rw [ht]; exact hd.1), ht]
  refine and_congr_right fun he => ?_
  constructor
  · intro h q hq
    obtain ⟨⟨b, n, s⟩, hb⟩ := get_ok_iff_mem_tags.2 hq
    obtain ⟨x, x1, x2⟩ := h q _ (get_saxes hb)
    rw [SDom.onGrid_ok hb, idx_ok x1]
    exact (mem_progression hd hb).1 x2
  · intro h q l hl
    have hq : q ∈ tags d := ht ▸ mem_tags_of_get hl
    obtain ⟨⟨b, n, s⟩, hb⟩ := get_ok_iff_mem_tags.2 hq
    rw [get_saxes hb] at hl; injection hl with hl; subst hl
    obtain ⟨x, hx⟩ := get_ok_iff_mem_tags.2 (he ▸ hq)
    have := h q hq
    rw [SDom.onGrid_ok hb, idx_ok hx] at this
    exact ⟨x, hx, (mem_progression hd hb).2 this⟩

theorem lex_sparse {d : SpDom τ} (hd : SpValid d) : (cart d).Pairwise Lex :=
  pairwise_cart (fun a ha => (hd.2 a.1 a.2 (get_of_mem hd.1 ha)).1)

theorem mem_cart_sparse {d : SpDom τ} (hd : SpValid d) :
    ∀ e, e ∈ cart d ↔ tags e = tags d ∧ SpDom.contains d [e] = .ok true := by
  intro e
  rw [mem_cart_get hd.1]
  refine and_congr_right fun he => ?_
  obtain ⟨c, g1, g2⟩ := SpDom.contains_one hd (e := e) (by rw [SameTags, he])
  rw [g1]
  simp only [Res.ok.injEq]
  rw [g2]

theorem grid_sparse' {d : SpDom τ} (hd : SpValid d) : Grid d.support d :=
  grid_sparse hd.1 (fun p hp => (hd.2 p.1 p.2 (get_of_mem hd.1 hp)).2)

theorem perm_of_mem {α : Type} {l m : List α} (hl : l.Nodup) (hm : m.Nodup) (h : ∀ x, x ∈ l ↔ x ∈ m) : l.Perm m :=
  (List.perm_ext_iff_of_nodup hl hm).2 h

/-- The axes of a support with given elements. -/
theorem Spec.Elements.grid {S : Support τ} {l : List (Elem τ)} (h : Elements S l) :
    ∃ ax, Grid S ax ∧ (cart ax).Perm l ∧ (cart ax).Pairwise Lex ∧ (cart ax).Nodup := by
  cases h with
  | contiguous hd hl h =>
    exact ⟨_, grid_dom hd, perm_of_mem (nodup_of_lex (lex_axes _)) hl
      (fun e => (mem_cart_axes hd e).trans (h e).symm), lex_axes _, nodup_of_lex (lex_axes _)⟩
  | strided hd hl h =>
    exact ⟨_, grid_strided hd, perm_of_mem (nodup_of_lex (lex_saxes hd)) hl
      (fun e => (mem_cart_saxes hd e).trans (h e).symm), lex_saxes hd, nodup_of_lex (lex_saxes hd)⟩
  | sparse hd hl h =>
    exact ⟨_, grid_sparse' hd, perm_of_mem (nodup_of_lex (lex_sparse hd)) hl
      (fun e => (mem_cart_sparse hd e).trans (h e).symm), lex_sparse hd, nodup_of_lex (lex_sparse hd)⟩

end DDC
