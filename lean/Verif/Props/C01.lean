import Mathlib.Data.List.Nodup
import Verif.Lemmas.TypeSeq

/-!
# C01  Tag-sequence algebra
-/

namespace DDC.Props

open TypeSeq

variable {τ : Type u} [DecidableEq τ]

/-- `in_tags_v` decides membership. -/
theorem C01_present (q : τ) (ts : List τ) : present q ts = true ↔ q ∈ ts :=
  present_iff q ts

/-- `type_seq_rank_v` is the position of the first occurrence of the tag, and
`SIZE_MAX` when the tag is absent. -/
theorem C01_rank (q : τ) (ts : List τ) :
    (q ∈ ts → ts[rank q ts]? = some q ∧ ∀ j, j < rank q ts → ts[j]? ≠ some q) ∧
    (q ∉ ts → rank q ts = 2 ^ 64 - 1) :=
  ⟨fun h => ⟨getElem_rank h, ne_before_rank h⟩, rank_absent⟩

/-- On a pack without repetitions, rank and element are inverse of each other. -/
theorem C01_rank_element (ts : List τ) (hnd : ts.Nodup) (i : Nat) (q : τ) :
    element i ts = some q ↔ (q ∈ ts ∧ rank q ts = i) := by
  unfold element
  constructor
  · intro h
    have hm : q ∈ ts := List.mem_of_getElem? h
    refine ⟨hm, ?_⟩
    have hr := getElem_rank hm
    rw [List.getElem?_eq_some_iff] at hr h
    obtain ⟨h1, e1⟩ := hr
    obtain ⟨h2, e2⟩ := h
    exact (List.Nodup.getElem_inj_iff hnd).1 (e1.trans e2.symm)
  · rintro ⟨hm, rfl⟩
    exact getElem_rank hm

/-- `type_seq_remove_t<A, B>`: exactly the tags of `A` not in `B`, with the order
and multiplicities of `A`. -/
theorem C01_remove (a b : List τ) :
    (∀ x, x ∈ remove a b ↔ x ∈ a ∧ x ∉ b) ∧ (remove a b).Sublist a ∧
      ∀ x, x ∉ b → (remove a b).count x = a.count x := by
  rw [remove_eq]
  refine ⟨by simp, List.filter_sublist, ?_⟩
  intro x hx
  rw [List.count_filter]
  simpa using hx

/-- `type_seq_merge_t<A, B>`: `A` followed by the tags of `B` not in `A`, in the
order of `B`. -/
theorem C01_merge (a b : List τ) :
    ∃ l, merge a b = a ++ l ∧ l.Sublist b ∧ (∀ x, x ∈ l ↔ x ∈ b ∧ x ∉ a) ∧
      ∀ x, x ∉ a → l.count x = b.count x := by
  refine ⟨_, merge_eq a b, List.filter_sublist, by simp, ?_⟩
  intro x hx
  rw [List.count_filter]
  simpa using hx

/-- Set semantics of merge, and preservation of uniqueness. -/
theorem C01_merge_set (a b : List τ) :
    (∀ x, x ∈ merge a b ↔ x ∈ a ∨ x ∈ b) ∧ (a.Nodup → b.Nodup → (merge a b).Nodup) := by
  rw [merge_eq]
  constructor
  · intro x
    by_cases h : x ∈ a <;> simp [h]
  · intro ha hb
    rw [List.nodup_append]
    refine ⟨ha, hb.filter _, ?_⟩
    intro x hx y hy he
    subst he
    simp at hy
    exact hy.2 hx

/-- `type_seq_replace_t<A, B, C>` with packs `B`, `C` of the same length: each tag
of `A` that occurs in `B` is replaced by the tag of `C` at the position of its
first occurrence in `B`, the others are unchanged; positions are preserved. -/
theorem C01_replace (a b c : List τ) (h : b.length = c.length) :
    ∃ r, replace a b c = some r ∧ r.length = a.length ∧
      ∀ (i : Nat) (x : τ), a[i]? = some x →
        (x ∉ b → r[i]? = some x) ∧
        (∀ k : Nat, b[k]? = some x → (∀ j, j < k → b[j]? ≠ some x) → r[i]? = c[k]?) := by
  obtain ⟨l, h1, h2, h3⟩ := replaceAcc_eq (a := a) (r := []) h
  refine ⟨l, by simpa [replace] using h1, h2, ?_⟩
  intro i x hx
  rw [h3 i x hx]
  refine ⟨replaceSingle_absent h, ?_⟩
  intro k hk hmin
  have hm : x ∈ b := List.mem_of_getElem? hk
  rw [replaceSingle_present h hm]
  have hr := getElem_rank hm
  have hle : ¬ rank x b < k := fun hlt => hmin _ hlt hr
  have hge : ¬ k < rank x b := fun hlt => ne_before_rank hm k hlt hk
  have : rank x b = k := by omega
  rw [this]

/-- `type_seq_contains_v`, `type_seq_same_v`, `type_seq_is_unique_v` decide
inclusion, mutual inclusion and absence of repetition; for packs without
repetition "same" means "permutation of". -/
theorem C01_decisions (a b : List τ) :
    (contains a b = true ↔ ∀ x, x ∈ a → x ∈ b) ∧
    (same a b = true ↔ ∀ x, x ∈ a ↔ x ∈ b) ∧
    (isUnique a = true ↔ a.Nodup) ∧
    (a.Nodup → b.Nodup → (same a b = true ↔ a.Perm b)) := by
  refine ⟨?_, same_iff a b, isUnique_iff a, ?_⟩
  · rw [contains_iff, List.subset_def]
  · intro ha hb
    rw [same_iff]
    constructor
    · intro h
      refine List.perm_iff_count.2 fun x => ?_
      rw [ha.count, hb.count]; simp [h x]
    · intro h x; exact h.mem_iff

omit [DecidableEq τ] in
/-- `type_seq_cat_t` concatenates: positions of the first pack are kept, those of the second
pack are shifted by the size of the first. -/
theorem C01_cat (a b : List τ) (i : Nat) :
    element i (cat a b) = if i < a.length then element i a else element (i - a.length) b := by
  simp only [element, cat]
  split
  · rename_i h; exact List.getElem?_append_left h
  · rename_i h; exact List.getElem?_append_right (by omega)

/-! Non-vacuity: the examples of the documentation of type_seq.hpp. -/
example : remove ['a', 'b', 'c'] ['z', 'c', 'y'] = ['a', 'b'] := by decide
example : merge ['a', 'b', 'c'] ['z', 'c', 'y'] = ['a', 'b', 'c', 'z', 'y'] := by decide
example : replace ['a', 'b', 'c'] ['z', 'c'] ['y', 'x'] = some ['a', 'b', 'x'] := by decide
example : (['z', 'c'] : List Char).length = (['y', 'x'] : List Char).length := by decide
example : rank 'c' ['a', 'b', 'c'] = 2 ∧ ('c' ∈ ['a', 'b', 'c']) ∧ (['a', 'b', 'c']).Nodup := by decide
example : same ['a', 'b'] ['b', 'a'] = true ∧ isUnique ['a', 'b'] = true ∧
    isUnique ['a', 'a'] = false := by decide

end DDC.Props
