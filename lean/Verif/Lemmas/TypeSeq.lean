import Verif.Model.TypeSeq

namespace DDC.TypeSeq

variable {τ : Type u} [DecidableEq τ]

theorem present_iff (q : τ) (ts : List τ) : present q ts = true ↔ q ∈ ts := by
  induction ts with
  | nil => simp [present]
  | cons h t ih =>
    simp only [present, List.mem_cons]
    split <;> simp_all

@[simp] theorem present_eq_decide (q : τ) (ts : List τ) : present q ts = decide (q ∈ ts) := by
  rw [Bool.eq_iff_iff, present_iff]; simp

theorem rank_lt {q : τ} {ts : List τ} (h : q ∈ ts) : rank q ts < ts.length := by
  induction ts with
  | nil => simp at h
  | cons a t ih =>
    simp only [rank]
    split
    · simp
    · rename_i hne
      have : q ∈ t := by simpa [hne] using h
      simp [this]; have := ih this; omega

theorem getElem_rank {q : τ} {ts : List τ} (h : q ∈ ts) : ts[rank q ts]? = some q := by
  induction ts with
  | nil => simp at h
  | cons a t ih =>
    simp only [rank]
    split
    · simp_all
    · rename_i hne
      have hq : q ∈ t := by simpa [hne] using h
      simp only [present_eq_decide, hq, decide_true, if_true]
      rw [Nat.add_comm, List.getElem?_cons_succ]
      exact ih hq

theorem ne_before_rank {q : τ} {ts : List τ} (h : q ∈ ts) :
    ∀ j, j < rank q ts → ts[j]? ≠ some q := by
  induction ts with
  | nil => simp at h
  | cons a t ih =>
    intro j hj
    simp only [rank] at hj
    split at hj
    · omega
    · rename_i hne
      have hq : q ∈ t := by simpa [hne] using h
      simp only [present_eq_decide, hq, decide_true, if_true] at hj
      cases j with
      | zero => simpa using fun h => hne h.symm
      | succ j => rw [List.getElem?_cons_succ]; exact ih hq j (by omega)

theorem rank_absent {q : τ} {ts : List τ} (h : q ∉ ts) : rank q ts = sizeMax := by
  induction ts with
  | nil => rfl
  | cons a t ih =>
    simp only [List.mem_cons, not_or] at h
    simp [rank, h.1, h.2]

theorem removeAcc_eq (a b r : List τ) :
    removeAcc a b r = r ++ a.filter (fun x => decide (x ∉ b)) := by
  induction a generalizing r with
  | nil => simp [removeAcc]
  | cons h t ih =>
    simp only [removeAcc, present_eq_decide]
    by_cases hb : h ∈ b <;> simp [hb, ih]

theorem remove_eq (a b : List τ) : remove a b = a.filter (fun x => decide (x ∉ b)) := by
  simp [remove, removeAcc_eq]

theorem mergeAcc_eq (a b r : List τ) :
    mergeAcc a b r = r ++ b.filter (fun x => decide (x ∉ a)) := by
  induction b generalizing r with
  | nil => simp [mergeAcc]
  | cons h t ih =>
    simp only [mergeAcc, present_eq_decide]
    by_cases hb : h ∈ a <;> simp [hb, ih]

theorem merge_eq (a b : List τ) : merge a b = a ++ b.filter (fun x => decide (x ∉ a)) := by
  simp [merge, mergeAcc_eq]

theorem contains_iff (a b : List τ) : contains a b = true ↔ a ⊆ b := by
  simp [contains, List.subset_def]

theorem same_iff (a b : List τ) : same a b = true ↔ ∀ x, x ∈ a ↔ x ∈ b := by
  simp only [same, Bool.and_eq_true, contains_iff, List.subset_def]
  constructor
  · intro h x; exact ⟨fun hx => h.1 hx, fun hx => h.2 hx⟩
  · intro h; exact ⟨fun {x} hx => (h x).1 hx, fun {x} hx => (h x).2 hx⟩

theorem length_filter_ne (q : τ) (a : List τ) :
    (a.filter (fun x => decide (¬ x = q))).length + a.count q = a.length := by
  induction a with
  | nil => simp
  | cons h t ih =>
    by_cases hq : h = q
    · subst hq; simp at ih ⊢; omega
    · have : (h == q) = false := by simpa using hq
      simp [hq] at ih ⊢; omega

theorem isUnique_iff (a : List τ) : isUnique a = true ↔ a.Nodup := by
  rw [List.nodup_iff_count]
  simp only [isUnique, List.all_eq_true, beq_iff_eq, remove_eq, List.mem_singleton]
  constructor
  · intro h q
    by_cases hq : q ∈ a
    · have h1 := h q hq
      have h2 := length_filter_ne q a
      have h3 := List.length_pos_of_mem hq
      omega
    · rw [List.count_eq_zero_of_not_mem hq]; omega
  · intro h q hq
    have h1 := h q
    have h2 := length_filter_ne q a
    have h3 : 0 < a.count q := List.count_pos_iff.2 hq
    omega

theorem replaceSingle_isSome {a : τ} {b c : List τ} (h : b.length = c.length) :
    (replaceSingle a b c).isSome := by
  induction b generalizing c with
  | nil => cases c <;> simp_all [replaceSingle]
  | cons hb tb ih =>
    cases c with
    | nil => simp at h
    | cons hc tc =>
      simp only [replaceSingle]
      split
      · rfl
      · exact ih (by simpa using h)

theorem replaceSingle_absent {a : τ} {b c : List τ} (h : b.length = c.length) (ha : a ∉ b) :
    replaceSingle a b c = some a := by
  induction b generalizing c with
  | nil => cases c <;> simp_all [replaceSingle]
  | cons hb tb ih =>
    cases c with
    | nil => simp at h
    | cons hc tc =>
      simp only [List.mem_cons, not_or] at ha
      simp only [replaceSingle, ha.1, if_false]
      exact ih (by simpa using h) ha.2

theorem replaceSingle_present {a : τ} {b c : List τ} (h : b.length = c.length) (ha : a ∈ b) :
    replaceSingle a b c = c[rank a b]? := by
  induction b generalizing c with
  | nil => simp at ha
  | cons hb tb ih =>
    cases c with
    | nil => simp at h
    | cons hc tc =>
      simp only [replaceSingle, rank]
      split
      · simp
      · rename_i hne
        have hm : a ∈ tb := by simpa [hne] using ha
        simp only [present_eq_decide, hm, decide_true, if_true]
        rw [Nat.add_comm, List.getElem?_cons_succ]
        exact ih (by simpa using h) hm

theorem replaceAcc_eq {a b c r : List τ} (h : b.length = c.length) :
    ∃ l, replaceAcc a b c r = some (r ++ l) ∧ l.length = a.length ∧
      ∀ (i : Nat) (x : τ), a[i]? = some x → l[i]? = replaceSingle x b c := by
  induction a generalizing r with
  | nil => exact ⟨[], by simp [replaceAcc]⟩
  | cons hd t ih =>
    obtain ⟨y, hy⟩ := Option.isSome_iff_exists.1 (replaceSingle_isSome (a := hd) h)
    obtain ⟨l, h1, h2, h3⟩ := ih (r := r ++ [y])
    refine ⟨y :: l, ?_, by simp [h2], ?_⟩
    · simp [replaceAcc, hy, h1]
    · intro i x hx
      cases i with
      | zero => simp at hx; subst hx; simp [hy]
      | succ i => simpa using h3 i x (by simpa using hx)

end DDC.TypeSeq
