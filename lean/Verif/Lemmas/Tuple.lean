import Verif.Model.Element
import Verif.Lemmas.TypeSeq

namespace DDC.Tup

variable {τ α β γ : Type} [DecidableEq τ]

omit [DecidableEq τ] in
@[simp] theorem tags_nil : tags ([] : Tup τ α) = [] := rfl
omit [DecidableEq τ] in
@[simp] theorem tags_cons (p : τ × α) (x : Tup τ α) : tags (p :: x) = p.1 :: tags x := rfl
omit [DecidableEq τ] in
@[simp] theorem tags_append (x y : Tup τ α) : tags (x ++ y) = tags x ++ tags y := by
  simp [tags]
omit [DecidableEq τ] in
@[simp] theorem length_tags (x : Tup τ α) : (tags x).length = x.length := by simp [tags]

@[simp] theorem get_nil (q : τ) : get q ([] : Tup τ α) = .ill := rfl

@[simp] theorem get_cons (q t : τ) (v : α) (x : Tup τ α) :
    get q ((t, v) :: x) = if q = t then .ok v else get q x := by
  unfold get
  by_cases h : q = t
  · subst h; simp [TypeSeq.rank, vals]
  · by_cases hx : q ∈ tags x
    · simp [h, hx, TypeSeq.rank, vals, Nat.add_comm 1]
    · simp [h, hx]

theorem get_ok_iff_mem_tags {q : τ} {x : Tup τ α} : (∃ v, get q x = .ok v) ↔ q ∈ tags x := by
  induction x with
  | nil => simp
  | cons p x ih =>
    obtain ⟨t, v⟩ := p
    by_cases h : q = t <;> simp [h, ih]

theorem get_ill {q : τ} {x : Tup τ α} (h : q ∉ tags x) : get q x = .ill := by
  simp [get, h]

theorem get_mem {q : τ} {x : Tup τ α} {v : α} (h : get q x = .ok v) : (q, v) ∈ x := by
  induction x with
  | nil => simp at h
  | cons p x ih =>
    obtain ⟨t, w⟩ := p
    rw [get_cons] at h
    split at h
    · simp_all
    · exact List.mem_cons_of_mem _ (ih h)

theorem get_of_mem {q : τ} {x : Tup τ α} {v : α} (hnd : (tags x).Nodup) (h : (q, v) ∈ x) :
    get q x = .ok v := by
  induction x with
  | nil => simp at h
  | cons p x ih =>
    obtain ⟨t, w⟩ := p
    simp only [tags_cons, List.nodup_cons] at hnd
    rw [get_cons]
    split
    · rename_i heq
      subst heq
      rcases List.mem_cons.1 h with h | h
      · simp_all
      · exact absurd (List.mem_map_of_mem (f := Prod.fst) h) hnd.1
    · rename_i hne
      rcases List.mem_cons.1 h with h | h
      · simp_all
      · exact ih hnd.2 h

theorem get_iff_mem {q : τ} {x : Tup τ α} {v : α} (hnd : (tags x).Nodup) :
    get q x = .ok v ↔ (q, v) ∈ x := ⟨get_mem, get_of_mem hnd⟩

theorem mem_tags_of_get {q : τ} {x : Tup τ α} {v : α} (h : get q x = .ok v) : q ∈ tags x :=
  get_ok_iff_mem_tags.1 ⟨v, h⟩

theorem get_cases (q : τ) (x : Tup τ α) :
    (q ∉ tags x ∧ get q x = .ill) ∨ (q ∈ tags x ∧ ∃ v, get q x = .ok v) := by
  by_cases h : q ∈ tags x
  · exact .inr ⟨h, get_ok_iff_mem_tags.2 h⟩
  · exact .inl ⟨h, get_ill h⟩

/-- Two tuples with the same tags in the same order and the same value for each
tag are the same array. -/
theorem ext_get {x y : Tup τ α} (ht : tags x = tags y) (hnd : (tags x).Nodup)
    (h : ∀ q ∈ tags x, get q x = get q y) : x = y := by
  induction x generalizing y with
  | nil => cases y with
    | nil => rfl
    | cons p y => simp at ht
  | cons p x ih =>
    cases y with
    | nil => simp at ht
    | cons r y =>
      obtain ⟨t, v⟩ := p
      obtain ⟨s, w⟩ := r
      simp only [tags_cons, List.cons.injEq] at ht
      obtain ⟨rfl, ht⟩ := ht
      simp only [tags_cons, List.nodup_cons] at hnd
      have h0 := h t (by simp)
      simp at h0
      subst h0
      congr 1
      refine ih ht hnd.2 ?_
      intro q hq
      have := h q (by simp [hq])
      have hne : q ≠ t := by rintro rfl; exact hnd.1 hq
      simpa [hne] using this

theorem take_singleton (q : τ) (x : Tup τ α) :
    take q [x] = if q ∈ tags x then .ok x else .ill := by
  simp only [take, TypeSeq.contains, List.all_cons, List.all_nil, Bool.and_true,
    TypeSeq.present_eq_decide, decide_eq_true_eq]
  split <;> simp

theorem select_ok {qs : List τ} {x : Tup τ α} (h : ∀ q ∈ qs, q ∈ tags x) :
    ∃ r, select qs x = .ok r ∧ tags r = qs ∧ ∀ q ∈ qs, get q r = get q x := by
  unfold select
  induction qs with
  | nil => exact ⟨[], rfl, rfl, by simp⟩
  | cons q qs ih =>
    obtain ⟨r, h1, h2, h3⟩ := ih (fun p hp => h p (List.mem_cons_of_mem _ hp))
    have hq : q ∈ tags x := h q (by simp)
    obtain ⟨v, hv⟩ := get_ok_iff_mem_tags.2 hq
    refine ⟨(q, v) :: r, ?_, by simp [h2], ?_⟩
    · simp [ofTuples, take_singleton, hq, hv, h1]
    · intro p hp
      rw [get_cons]
      split
      · simp_all
      · rename_i hne
        exact h3 p (by simpa [hne] using hp)

theorem select_ill {qs : List τ} {x : Tup τ α} {q : τ} (hq : q ∈ qs) (h : q ∉ tags x) :
    select qs x = .ill := by
  unfold select
  induction qs with
  | nil => simp at hq
  | cons p qs ih =>
    by_cases hp : p ∈ tags x
    · have hne : q ≠ p := by rintro rfl; exact h hp
      obtain ⟨v, hv⟩ := get_ok_iff_mem_tags.2 hp
      simp [ofTuples, take_singleton, hp, hv, ih (by simpa [hne] using hq)]
    · simp [ofTuples, take_singleton, hp]

/-- `take` finds the unique argument owning the tag. -/
theorem take_ok {q : τ} {l r : List (Tup τ α)} {x : Tup τ α} (hx : q ∈ tags x)
    (hl : ∀ y ∈ l, q ∉ tags y) (hr : ∀ y ∈ r, q ∉ tags y) :
    take q (l ++ x :: r) = .ok x := by
  induction l with
  | nil =>
    have : r.all (fun y => !TypeSeq.contains [q] (tags y)) = true := by
      simp only [List.all_eq_true]; intro y hy; simp [TypeSeq.contains, hr y hy]
    simp [take, TypeSeq.contains, hx]
    simpa [TypeSeq.contains] using this
  | cons y l ih =>
    have : q ∉ tags y := hl y (by simp)
    simp only [List.cons_append, take, TypeSeq.contains, List.all_cons, List.all_nil, Bool.and_true,
      TypeSeq.present_eq_decide, this, decide_false]
    exact ih (fun z hz => hl z (List.mem_cons_of_mem _ hz))

theorem take_inv {q : τ} {xs : List (Tup τ α)} {x : Tup τ α} (h : take q xs = .ok x) :
    ∃ l r, xs = l ++ x :: r ∧ q ∈ tags x ∧ (∀ y ∈ l, q ∉ tags y) ∧ ∀ y ∈ r, q ∉ tags y := by
  induction xs with
  | nil => simp [take] at h
  | cons y t ih =>
    simp only [take, TypeSeq.contains, List.all_cons, List.all_nil, Bool.and_true,
      TypeSeq.present_eq_decide] at h
    split at h
    · rename_i hy
      split at h
      · rename_i ht
        injection h with h; subst h
        refine ⟨[], t, rfl, by simpa using hy, by simp, ?_⟩
        intro z hz
        have := List.all_eq_true.1 ht z hz
        simpa using this
      · simp at h
    · rename_i hy
      obtain ⟨l, r, h1, h2, h3, h4⟩ := ih h
      refine ⟨y :: l, r, by simp [h1], h2, ?_, h4⟩
      intro z hz
      rcases List.mem_cons.1 hz with rfl | hz
      · simpa using hy
      · exact h3 z hz

/-- Spec of the merging constructor: every requested tag belongs to exactly one
argument. -/
def OwnedOnce (q : τ) (xs : List (Tup τ α)) : Prop :=
  ∃ l x r, xs = l ++ x :: r ∧ q ∈ tags x ∧ (∀ y ∈ l, q ∉ tags y) ∧ ∀ y ∈ r, q ∉ tags y

theorem ofTuples_ok {qs : List τ} {xs : List (Tup τ α)} (h : ∀ q ∈ qs, OwnedOnce q xs) :
    ∃ r, ofTuples qs xs = .ok r ∧ tags r = qs ∧
      ∀ q ∈ qs, ∀ x ∈ xs, q ∈ tags x → get q r = get q x := by
  induction qs with
  | nil => exact ⟨[], rfl, rfl, by simp⟩
  | cons q qs ih =>
    obtain ⟨r, h1, h2, h3⟩ := ih (fun p hp => h p (List.mem_cons_of_mem _ hp))
    obtain ⟨l, x, rr, rfl, hx, hl, hr⟩ := h q (by simp)
    obtain ⟨v, hv⟩ := get_ok_iff_mem_tags.2 hx
    refine ⟨(q, v) :: r, ?_, by simp [h2], ?_⟩
    · simp [ofTuples, take_ok hx hl hr, hv, h1]
    · intro p hp y hy hpy
      rw [get_cons]
      split
      · rename_i heq
        subst heq
        have : y = x := by
          simp only [List.mem_append, List.mem_cons] at hy
          rcases hy with hy | hy | hy
          · exact absurd hpy (hl y hy)
          · exact hy
          · exact absurd hpy (hr y hy)
        subst this; exact hv.symm
      · rename_i hne
        exact h3 p (by simpa [hne] using hp) y hy hpy

theorem ofTuples_inv {qs : List τ} {xs : List (Tup τ α)} {r : Tup τ α}
    (h : ofTuples qs xs = .ok r) : ∀ q ∈ qs, OwnedOnce q xs := by
  induction qs generalizing r with
  | nil => simp
  | cons q qs ih =>
    simp only [ofTuples, Res.bind_eq_ok] at h
    obtain ⟨x, hx, v, hv, r', hr', _⟩ := h
    intro p hp
    rcases List.mem_cons.1 hp with rfl | hp
    · obtain ⟨l, r, h1, h2, h3, h4⟩ := take_inv hx
      exact ⟨l, x, r, h1, h2, h3, h4⟩
    · exact ih hr' p hp

theorem eqFold_ok [DecidableEq α] {x y : Tup τ α} (hx : (tags x).Nodup) (h : ∀ q ∈ tags x, q ∈ tags y) :
    ∃ b, eqFold x y = .ok b ∧ (b = true ↔ ∀ q ∈ tags x, get q x = get q y) := by
  induction x with
  | nil => exact ⟨true, rfl, by simp⟩
  | cons p x ih =>
    obtain ⟨t, v⟩ := p
    simp only [tags_cons, List.nodup_cons] at hx
    obtain ⟨b, hb, hb'⟩ := ih hx.2 (fun q hq => h q (by simp [hq]))
    obtain ⟨w, hw⟩ := get_ok_iff_mem_tags.2 (h t (by simp))
    refine ⟨decide (v = w) && b, by simp [eqFold, hw, hb], ?_⟩
    simp only [Bool.and_eq_true, decide_eq_true_eq, hb', tags_cons, List.mem_cons, forall_eq_or_imp]
    constructor
    · rintro ⟨rfl, h2⟩
      refine ⟨by simp [hw], ?_⟩
      intro q hq
      have hne : q ≠ t := by rintro rfl; exact hx.1 hq
      simp [hne, h2 q hq]
    · rintro ⟨h1, h2⟩
      refine ⟨by simpa [hw] using h1, ?_⟩
      intro q hq
      have hne : q ≠ t := by rintro rfl; exact hx.1 hq
      simpa [hne] using h2 q hq

theorem eqFold_ill [DecidableEq α] {x y : Tup τ α} {q : τ} (hq : q ∈ tags x) (h : q ∉ tags y) :
    eqFold x y = .ill := by
  induction x with
  | nil => simp at hq
  | cons p x ih =>
    obtain ⟨t, v⟩ := p
    by_cases ht : t ∈ tags y
    · obtain ⟨w, hw⟩ := get_ok_iff_mem_tags.2 ht
      have hne : q ≠ t := by rintro rfl; exact h ht
      have : q ∈ tags x := by simpa [hne] using hq
      simp [eqFold, hw, ih this]
    · simp [eqFold, get_ill ht]

theorem modify_ok {q : τ} {f : α → Res α} {x : Tup τ α} {v w : α} (hnd : (tags x).Nodup)
    (hv : get q x = .ok v) (hw : f v = .ok w) :
    ∃ y, modify q f x = .ok y ∧ tags y = tags x ∧ get q y = .ok w ∧
      ∀ p, p ≠ q → get p y = get p x := by
  induction x with
  | nil => simp at hv
  | cons pr x ih =>
    obtain ⟨t, u⟩ := pr
    simp only [tags_cons, List.nodup_cons] at hnd
    rw [get_cons] at hv
    by_cases h : q = t
    · subst h
      simp only [if_true] at hv
      injection hv with hv; subst hv
      refine ⟨(q, w) :: x, by simp [modify, hw], by simp, by simp, ?_⟩
      intro p hp; simp [hp]
    · rw [if_neg h] at hv
      obtain ⟨y, h1, h2, h3, h4⟩ := ih hnd.2 hv
      refine ⟨(t, u) :: y, by simp [modify, h, h1], by simp [h2], by simp [h, h3], ?_⟩
      intro p hp
      simp only [get_cons]
      split
      · rfl
      · exact h4 p hp

theorem modify_err {q : τ} {f : α → Res α} {x : Tup τ α} {v : α}
    (hv : get q x = .ok v) (hw : ∀ w, f v ≠ .ok w) : ∀ y, modify q f x ≠ .ok y := by
  induction x with
  | nil => simp at hv
  | cons pr x ih =>
    obtain ⟨t, u⟩ := pr
    rw [get_cons] at hv
    intro y hy
    by_cases h : q = t
    · subst h
      simp only [if_true] at hv
      injection hv with hv; subst hv
      simp only [modify, if_true, Res.bind_eq_ok] at hy
      obtain ⟨a, ha, _⟩ := hy
      exact hw a ha
    · rw [if_neg h] at hv
      simp only [modify, h, if_false, Res.bind_eq_ok] at hy
      obtain ⟨a, ha, _⟩ := hy
      exact ih hv a ha

theorem modify_ub {q : τ} {f : α → Res α} {x : Tup τ α} {v : α}
    (hv : get q x = .ok v) (hw : f v = .ub) : modify q f x = .ub := by
  induction x with
  | nil => simp at hv
  | cons pr x ih =>
    obtain ⟨t, u⟩ := pr
    rw [get_cons] at hv
    by_cases h : q = t
    · subst h
      simp only [if_true] at hv
      injection hv with hv; subst hv
      simp [modify, hw]
    · rw [if_neg h] at hv
      simp [modify, h, ih hv]

/-- Specification of `x op= y` when every component operation succeeds. -/
theorem opAssign_ok {op : α → β → Res α} {x : Tup τ α} {y : Tup τ β}
    (hx : (tags x).Nodup) (hy : (tags y).Nodup)
    (hop : ∀ q w, (q, w) ∈ y → ∃ v u, get q x = .ok v ∧ op v w = .ok u) :
    ∃ r, opAssign op x y = .ok r ∧ tags r = tags x ∧
      (∀ q, q ∉ tags y → get q r = get q x) ∧
      (∀ q w, (q, w) ∈ y → ∀ v, get q x = .ok v → get q r = op v w) := by
  induction y generalizing x with
  | nil => exact ⟨x, rfl, rfl, by simp, by simp⟩
  | cons p y ih =>
    obtain ⟨t, w⟩ := p
    simp only [tags_cons, List.nodup_cons] at hy
    obtain ⟨v, u, hv, hu⟩ := hop t w (by simp)
    obtain ⟨x', h1, h2, h3, h4⟩ := modify_ok (f := fun v => op v w) hx hv hu
    have hop' : ∀ q w, (q, w) ∈ y → ∃ v u, get q x' = .ok v ∧ op v w = .ok u := by
      intro q w' hq
      have hne : q ≠ t := by
        rintro rfl; exact hy.1 (List.mem_map_of_mem (f := Prod.fst) hq)
      obtain ⟨v', u', hv', hu'⟩ := hop q w' (by simp [hq])
      exact ⟨v', u', by rw [h4 q hne]; exact hv', hu'⟩
    obtain ⟨r, g1, g2, g3, g4⟩ := ih (by rw [h2]; exact hx) hy.2 hop'
    refine ⟨r, by simp [opAssign, h1, g1], by rw [g2, h2], ?_, ?_⟩
    · intro q hq
      simp only [tags_cons, List.mem_cons, not_or] at hq
      rw [g3 q hq.2, h4 q hq.1]
    · intro q w' hq v' hv'
      rcases List.mem_cons.1 hq with hq' | hq'
      · injection hq' with e1 e2
        subst e1; subst e2
        rw [hv] at hv'; injection hv' with hv'; subst hv'
        rw [g3 q hy.1, h3, hu]
      · have hne : q ≠ t := by
          rintro rfl; exact hy.1 (List.mem_map_of_mem (f := Prod.fst) hq')
        exact g4 q w' hq' v' (by rw [h4 q hne]; exact hv')

/-- If some component operation is undefined, so is the whole assignment,
provided every tag of the right operand is a tag of the left one and the other
component operations either succeed or are undefined. -/
theorem opAssign_ub {op : α → β → Res α} {x : Tup τ α} {y : Tup τ β}
    (hx : (tags x).Nodup) (hy : (tags y).Nodup)
    (hop : ∀ q w, (q, w) ∈ y → ∃ v, get q x = .ok v ∧ ((∃ u, op v w = .ok u) ∨ op v w = .ub))
    (hub : ∃ q w v, (q, w) ∈ y ∧ get q x = .ok v ∧ op v w = .ub) :
    opAssign op x y = .ub := by
  induction y generalizing x with
  | nil => obtain ⟨q, w, v, h, _⟩ := hub; simp at h
  | cons p y ih =>
    obtain ⟨t, w⟩ := p
    simp only [tags_cons, List.nodup_cons] at hy
    obtain ⟨v, hv, hu⟩ := hop t w (by simp)
    rcases hu with ⟨u, hu⟩ | hu
    · obtain ⟨x', h1, h2, h3, h4⟩ := modify_ok (f := fun v => op v w) hx hv hu
      have key : ∀ q w', (q, w') ∈ y → q ≠ t := by
        rintro q w' hq rfl; exact hy.1 (List.mem_map_of_mem (f := Prod.fst) hq)
      have := ih (x := x') (by rw [h2]; exact hx) hy.2
        (by
          intro q w' hq
          obtain ⟨v', hv', hu'⟩ := hop q w' (by simp [hq])
          exact ⟨v', by rw [h4 q (key q w' hq)]; exact hv', hu'⟩)
        (by
          obtain ⟨q, w', v', hq, hv', hu'⟩ := hub
          rcases List.mem_cons.1 hq with hq | hq
          · injection hq with e1 e2
            subst e1; subst e2
            rw [hv] at hv'; injection hv' with hv'; subst hv'
            rw [hu] at hu'; simp at hu'
          · exact ⟨q, w', v', hq, by rw [h4 q (key q w' hq)]; exact hv', hu'⟩)
      simp [opAssign, h1, this]
    · simp [opAssign, modify_ub (f := fun v => op v w) hv hu]

theorem modify_ill {q : τ} {f : α → Res α} {x : Tup τ α} (h : q ∉ tags x) :
    modify q f x = .ill := by
  induction x with
  | nil => rfl
  | cons pr x ih =>
    obtain ⟨t, u⟩ := pr
    simp only [tags_cons, List.mem_cons, not_or] at h
    simp [modify, h.1, ih h.2]

theorem mapVals_ok {f : α → Res β} {x : Tup τ α} (h : ∀ v ∈ x.vals, ∃ w, f v = .ok w) :
    ∃ r, mapVals f x = .ok r ∧ tags r = tags x ∧
      ∀ q v, get q x = .ok v → get q r = f v := by
  induction x with
  | nil => exact ⟨[], rfl, rfl, by simp⟩
  | cons p x ih =>
    obtain ⟨t, v⟩ := p
    obtain ⟨w, hw⟩ := h v (by simp [vals])
    obtain ⟨r, h1, h2, h3⟩ := ih (fun u hu => h u (by simp [vals] at hu ⊢; exact .inr hu))
    refine ⟨(t, w) :: r, by simp [mapVals, hw, h1], by simp [h2], ?_⟩
    intro q u hq
    rw [get_cons] at hq ⊢
    split
    · rename_i he
      rw [if_pos he] at hq
      injection hq with hq; subst hq; exact hw.symm
    · rename_i he
      rw [if_neg he] at hq
      exact h3 q u hq

omit [DecidableEq τ] in
theorem mapVals_ub {f : α → Res β} {x : Tup τ α}
    (h : ∀ v ∈ x.vals, (∃ w, f v = .ok w) ∨ f v = .ub) (hub : ∃ v ∈ x.vals, f v = .ub) :
    mapVals f x = .ub := by
  induction x with
  | nil => obtain ⟨v, hv, _⟩ := hub; simp [vals] at hv
  | cons p x ih =>
    obtain ⟨t, v⟩ := p
    rcases h v (by simp [vals]) with ⟨w, hw⟩ | hw
    · have := ih (fun u hu => h u (by simp [vals] at hu ⊢; exact .inr hu)) (by
        obtain ⟨u, hu, hu'⟩ := hub
        simp only [vals, List.map_cons, List.mem_cons] at hu
        rcases hu with rfl | hu
        · rw [hw] at hu'; simp at hu'
        · exact ⟨u, hu, hu'⟩)
      simp [mapVals, hw, this]
    · simp [mapVals, hw]

theorem zipVals_ok {f : α → β → Res γ} {x : Tup τ α} {y : Tup τ β}
    (h : ∀ q v, (q, v) ∈ x → ∃ w z, get q y = .ok w ∧ f v w = .ok z) :
    ∃ r, zipVals f x y = .ok r ∧ tags r = tags x ∧
      ∀ q v w, get q x = .ok v → get q y = .ok w → get q r = f v w := by
  induction x with
  | nil => exact ⟨[], rfl, rfl, by simp⟩
  | cons p x ih =>
    obtain ⟨t, v⟩ := p
    obtain ⟨w, z, hw, hz⟩ := h t v (by simp)
    obtain ⟨r, h1, h2, h3⟩ := ih (fun q u hu => h q u (by simp [hu]))
    refine ⟨(t, z) :: r, by simp [zipVals, hw, hz, h1], by simp [h2], ?_⟩
    intro q u w' hq hy
    rw [get_cons] at hq ⊢
    split
    · rename_i he
      rw [if_pos he] at hq
      injection hq with hq; subst hq
      subst he
      rw [hw] at hy; injection hy with hy; subst hy; exact hz.symm
    · rename_i he
      rw [if_neg he] at hq
      exact h3 q u w' hq hy

end DDC.Tup
