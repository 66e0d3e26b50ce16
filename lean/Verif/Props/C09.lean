import Verif.Lemmas.DomainOps

/-!
# C09  `restrict_with` is set intersection in the shared dimensions
-/

namespace DDC.Props

open Tup Dom Spec

variable {τ : Type} [DecidableEq τ]

/-- Specification: `o` lies inside `d` along each of its dimensions. -/
def Inside (o d : Dom τ) : Prop := ∀ q ∈ tags o, lo q d ≤ lo q o ∧ hi q o ≤ hi q d

/-- `restrict_with` over dimensions of the domain: completes exactly when the
restricting domain lies inside, otherwise an assertion fails. -/
theorem C09_assertion (d o : Dom τ) (hd : Valid d) (hs : ∀ q ∈ tags o, q ∈ tags d) :
    (Inside o d → ∃ r, restrictWith d o = .ok r) ∧ (¬ Inside o d → restrictWith d o = .abort) := by
  cases d with
  | nil =>
    have : tags o = [] := List.eq_nil_iff_forall_not_mem.2 (fun q hq => by simpa using hs q hq)
    refine ⟨fun _ => ⟨[], rfl⟩, fun h => absurd ?_ h⟩
    intro q hq; rw [this] at hq; simp at hq
  | cons p0 d0 =>
    generalize hdd : p0 :: d0 = d at *
    obtain ⟨c1, a1, a2⟩ := allCmp_ok (op := Elem.le) (R := fun x y => decide (x ≤ y))
      (by intro q x y; simp [Elem.le]) (a := beg d) (b := beg o) (qs := tags o)
      (by intro q hq; rw [tags_beg]; exact hs q hq) (by intro q hq; rw [tags_beg]; exact hq)
    obtain ⟨c2, b1, b2⟩ := allCmp_ok (op := Elem.ge) (R := fun x y => decide (x ≥ y))
      (by intro q x y; simp [Elem.ge]) (a := fin d) (b := fin o) (qs := tags o)
      (by intro q hq; rw [tags_fin]; exact hs q hq) (by intro q hq; rw [tags_fin]; exact hq)
    have hiff : (c1 = true ∧ c2 = true) ↔ Inside o d := by
      rw [a2, b2]
      constructor
      · rintro ⟨h1, h2⟩ q hq
        obtain ⟨⟨b, e⟩, h⟩ := get_ok_iff_mem_tags.2 hq
        obtain ⟨⟨b', e'⟩, h'⟩ := get_ok_iff_mem_tags.2 (hs q hq)
        have k1 := h1 q hq _ _ (get_beg_ok h') (get_beg_ok h)
        have k2 := h2 q hq _ _ (get_fin_ok h') (get_fin_ok h)
        simp only [decide_eq_true_eq, BitVec.le_def, ge_iff_le] at k1 k2
        rw [lo_ok h, hi_ok h, lo_ok h', hi_ok h']
        exact ⟨k1, k2⟩
      · intro hin
        refine ⟨?_, ?_⟩ <;> intro q hq x y hx hy
        all_goals
          obtain ⟨⟨b, e⟩, h⟩ := get_ok_iff_mem_tags.2 hq
          obtain ⟨⟨b', e'⟩, h'⟩ := get_ok_iff_mem_tags.2 (hs q hq)
          have := hin q hq
          rw [lo_ok h, hi_ok h, lo_ok h', hi_ok h'] at this
        · rw [get_beg_ok h'] at hx; rw [get_beg_ok h] at hy
          injection hx with hx; injection hy with hy; subst hx; subst hy
          simp only [decide_eq_true_eq, BitVec.le_def]; exact this.1
        · rw [get_fin_ok h'] at hx; rw [get_fin_ok h] at hy
          injection hx with hx; injection hy with hy; subst hx; subst hy
          simp only [decide_eq_true_eq, ge_iff_le, BitVec.le_def]; exact this.2
    have hdef : restrictWith d o = (do
        let c1 ← allCmp Elem.le (beg d) (beg o) (tags o)
        let c2 ← allCmp Elem.ge (fin d) (fin o) (tags o)
        Res.guardAbort c1
        Res.guardAbort c2
        restrictWithCore d o) := by rw [← hdd]; rfl
    rw [hdef, a1, b1]
    simp only [Res.ok_bind]
    obtain ⟨r, r1, _⟩ := restrictWithCore_ok (o := o) hd.1
    rw [← hiff]
    constructor
    · rintro ⟨h1, h2⟩
      exact ⟨r, by simp [h1, h2, r1]⟩
    · intro h
      cases c1 <;> cases c2 <;> simp_all

/-- The result contains exactly the points of the domain whose shared coordinates
are in the restricting domain; the dimensions not shared are unchanged. -/
theorem C09_intersection (d o r : Dom τ) (hd : Valid d) (ho : Valid o)
    (hs : ∀ q ∈ tags o, q ∈ tags d) (hin : Inside o d) (hr : restrictWith d o = .ok r) :
    Valid r ∧ tags r = tags d ∧ (∀ q ∈ tags d, q ∉ tags o → get q r = get q d) ∧
    ∀ e, SameTags e d → (contains r [e] = .ok true ↔
      contains d [e] = .ok true ∧ ∀ q ∈ tags o, lo q o ≤ idx q e ∧ idx q e < hi q o) := by
  obtain ⟨r', r1, r2, r3⟩ := restrictWithCore_ok (o := o) hd.1
  have : r = r' := by
    cases d with
    | nil =>
      have e1 : restrictWith ([] : Dom τ) o = .ok [] := rfl
      have e2 : restrictWithCore ([] : Dom τ) o = .ok [] := rfl
      rw [e1] at hr; rw [e2] at r1
      injection hr with hr; injection r1 with r1; rw [← hr, ← r1]
    | cons p0 d0 =>
      simp only [restrictWith, Res.bind_eq_ok] at hr
      obtain ⟨_, _, _, _, _, _, _, _, h⟩ := hr
      rw [r1] at h; injection h with h; exact h.symm
  subst this
  have hv : Valid r := by
    refine valid_of_get (by rw [r2]; exact hd.1) ?_
    intro q hq
    rw [r2] at hq
    by_cases hqo : q ∈ tags o
    · exact ⟨o, ho, hqo, by rw [r3 q hq, if_pos hqo]⟩
    · exact ⟨d, hd, hq, by rw [r3 q hq, if_neg hqo]⟩
  refine ⟨hv, r2, fun q hq hqo => by rw [r3 q hq, if_neg hqo], ?_⟩
  intro e he
  obtain ⟨c, g1, g2⟩ := contains_one hv.1 (e := e) (by rw [SameTags, r2]; exact he)
  obtain ⟨c', g1', g2'⟩ := contains_one hd.1 he
  rw [g1, g1']
  simp only [Res.ok.injEq]
  rw [g2, g2', InBox, InBox, r2]
  constructor
  · intro h
    refine ⟨?_, ?_⟩
    · intro q hq
      have := h q hq
      by_cases hqo : q ∈ tags o
      · have k := r3 q hq
        rw [if_pos hqo] at k
        rw [lo_congr k, hi_congr k] at this
        have := hin q hqo; omega
      · have k := r3 q hq
        rw [if_neg hqo] at k
        rw [lo_congr k, hi_congr k] at this; exact this
    · intro q hqo
      have k := r3 q (hs q hqo)
      rw [if_pos hqo] at k
      have := h q (hs q hqo)
      rw [lo_congr k, hi_congr k] at this; exact this
  · rintro ⟨h1, h2⟩ q hq
    have k := r3 q hq
    by_cases hqo : q ∈ tags o
    · rw [if_pos hqo] at k
      rw [lo_congr k, hi_congr k]
      exact h2 q hqo
    · rw [if_neg hqo] at k
      rw [lo_congr k, hi_congr k]
      exact h1 q hq

/-- Restricting with itself is the identity and restricting twice with the same
domain is the same as restricting once. -/
theorem C09_idempotent (d o r : Dom τ) (hd : Valid d) (ho : Valid o)
    (hs : ∀ q ∈ tags o, q ∈ tags d) (hin : Inside o d) (hr : restrictWith d o = .ok r) :
    restrictWith d d = .ok d ∧ restrictWith r o = .ok r := by
  have hself : ∀ (x y : Dom τ), Valid x → (∀ q ∈ tags y, q ∈ tags x) →
      (∀ q ∈ tags y, get q x = get q y) → restrictWith x y = .ok x := by
    intro x y hx hsub hget
    have hin : Inside y x := by
      intro q hq
      rw [lo_congr (hget q hq), hi_congr (hget q hq)]
      exact ⟨Nat.le_refl _, Nat.le_refl _⟩
    obtain ⟨z, hz⟩ := (C09_assertion x y hx hsub).1 hin
    obtain ⟨z', z1, z2, z3⟩ := restrictWithCore_ok (o := y) hx.1
    have : z = z' := by
      cases x with
      | nil =>
        have e1 : restrictWith ([] : Dom τ) y = .ok [] := rfl
        have e2 : restrictWithCore ([] : Dom τ) y = .ok [] := rfl
        rw [e1] at hz; rw [e2] at z1
        injection hz with hz; injection z1 with z1; rw [← hz, ← z1]
      | cons p0 d0 =>
        simp only [restrictWith, Res.bind_eq_ok] at hz
        obtain ⟨_, _, _, _, _, _, _, _, h⟩ := hz
        rw [z1] at h; injection h with h; exact h.symm
    subst this
    rw [hz]; congr 1
    refine ext_get z2 (by rw [z2]; exact hx.1) ?_
    intro q hq
    rw [z2] at hq
    rw [z3 q hq]
    split
    · rename_i h; exact (hget q h).symm
    · rfl
  refine ⟨hself d d hd (fun _ h => h) (fun _ _ => rfl), ?_⟩
  obtain ⟨hv, ht, hu, _⟩ := C09_intersection d o r hd ho hs hin hr
  obtain ⟨r', r1, r2, r3⟩ := restrictWithCore_ok (o := o) hd.1
  have : r = r' := by
    cases d with
    | nil =>
      have e1 : restrictWith ([] : Dom τ) o = .ok [] := rfl
      have e2 : restrictWithCore ([] : Dom τ) o = .ok [] := rfl
      rw [e1] at hr; rw [e2] at r1
      injection hr with hr; injection r1 with r1; rw [← hr, ← r1]
    | cons p0 d0 =>
      simp only [restrictWith, Res.bind_eq_ok] at hr
      obtain ⟨_, _, _, _, _, _, _, _, h⟩ := hr
      rw [r1] at h; injection h with h; exact h.symm
  subst this
  refine hself r o hv (fun q hq => by rw [ht]; exact hs q hq) ?_
  intro q hq
  rw [r3 q (hs q hq), if_pos hq]

/-! Non-vacuity. -/
example : restrictWith ([('x', (0, 10)), ('y', (2, 5))] : Dom Char) [('y', (3, 4))]
      = .ok [('x', (0, 10)), ('y', (3, 4))] ∧
    restrictWith ([('x', (0, 10)), ('y', (2, 5))] : Dom Char) [('y', (1, 4))] = .abort := by decide
example : Inside ([('y', (3, 4))] : Dom Char) [('x', (0, 10)), ('y', (2, 5))] := by
  intro q hq
  simp only [tags, List.map_cons, List.map_nil, List.mem_cons, List.not_mem_nil, or_false] at hq
  subst hq; decide

end DDC.Props
