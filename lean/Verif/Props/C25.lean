import Verif.Model.Space
import Verif.Lemmas.Domain
import Verif.Spec.Domain
import Mathlib.Data.List.Induction

/-!
# C25 — discrete spaces live from their initialisation to the end of the guard
-/

namespace DDC.Props

open Spaces

variable {δ κ A : Type} [DecidableEq δ] [DecidableEq κ]

/-- Guard scopes do not overlap and initialisations take place inside of one; `b` tells whether
a guard is alive at the beginning. -/
def Scoped : Bool → List (Spaces.Op δ A) → Prop
  | _, [] => True
  | false, .guard :: h => Scoped true h
  | true, .unguard :: h => Scoped false h
  | true, .init _ _ :: h => Scoped true h
  | _, _ => False

/-- Is a guard alive after the history? -/
def alive (h : List (Spaces.Op δ A)) : Bool :=
  h.foldl (fun b op => match op with | .guard => true | .unguard => false | .init _ _ => b) false

/-- After the history `h`, dimension `d` has attributes `a`: the history ends with a guard scope
whose first initialisation of `d` with constructible attributes gave `a`. -/
def Readable (h : List (Spaces.Op δ A)) (d : δ) (a : A) : Prop :=
  ∃ pre m1 m2, h = pre ++ .guard :: m1 ++ .init d (some a) :: m2 ∧
    (∀ op ∈ m1 ++ m2, op ≠ .guard ∧ op ≠ .unguard) ∧ ∀ c, .init d (some c) ∉ m1

/-- Allowed next call. -/
private def Next (b : Bool) : Spaces.Op δ A → Prop
  | .guard => b = false
  | .unguard => b = true
  | .init _ _ => b = true

omit [DecidableEq δ] in
private theorem scoped_append (b : Bool) (h : List (Spaces.Op δ A)) (op : Spaces.Op δ A) :
    Scoped b (h ++ [op]) ↔ Scoped b h ∧
      Next (h.foldl (fun b op => match op with | .guard => true | .unguard => false | .init _ _ => b) b) op := by
  induction h generalizing b with
  | nil => cases b <;> cases op <;> simp [Scoped, Next]
  | cons x h ih => cases b <;> cases x <;> simp [Scoped, ih]

omit [DecidableEq δ] in
private theorem alive_append (h : List (Spaces.Op δ A)) (op : Spaces.Op δ A) :
    alive (h ++ [op]) = (match op with | .guard => true | .unguard => false | .init _ _ => alive h) := by
  simp [alive]

omit [DecidableEq δ] in
private theorem readable_guard (h : List (Spaces.Op δ A)) (op : Spaces.Op δ A) (hop : op = .guard ∨ op = .unguard) (d : δ) (a : A) :
    ¬ Readable (h ++ [op]) d a := by
  rintro ⟨pre, m1, m2, h1, h2, _⟩
  rcases List.eq_nil_or_concat m2 with rfl | ⟨l, x, rfl⟩
  · obtain ⟨_, h3⟩ := List.append_inj' (s₁ := h) (t₁ := [op]) (s₂ := pre ++ .guard :: m1) (t₂ := [.init d (some a)]) h1 rfl
    rcases hop with rfl | rfl <;> simp at h3
  · obtain ⟨_, h3⟩ := List.append_inj' (s₁ := h) (t₁ := [op]) (s₂ := pre ++ .guard :: m1 ++ .init d (some a) :: l)
      (t₂ := [x]) (by rw [h1]; simp) rfl
    have := h2 x (by simp)
    simp only [List.cons.injEq, and_true] at h3
    subst h3
    rcases hop with rfl | rfl <;> simp at this

omit [DecidableEq δ] in
private theorem readable_unique {h : List (Spaces.Op δ A)} {d : δ} {a c : A} (h1 : Readable h d a) (h2 : Readable h d c) : a = c := by
  -- the last guard of the history is the same in both decompositions
  have key : ∀ (pre pre' m m' : List (Spaces.Op δ A)), pre ++ .guard :: m = pre' ++ .guard :: m' →
      (∀ op ∈ m, op ≠ .guard) → (∀ op ∈ m', op ≠ .guard) → m = m' := by
    intro pre pre' m m' he hm hm'
    induction pre generalizing pre' with
    | nil =>
      cases pre' with
      | nil => simpa using he
      | cons x pre' =>
        simp only [List.nil_append, List.cons_append, List.cons.injEq] at he
        exact absurd rfl (hm .guard (by rw [he.2]; simp))
    | cons y pre ih =>
      cases pre' with
      | nil =>
        simp only [List.nil_append, List.cons_append, List.cons.injEq] at he
        exact absurd rfl (hm' .guard (by rw [← he.2]; simp))
      | cons x pre' =>
        simp only [List.cons_append, List.cons.injEq] at he
        exact ih pre' he.2
  obtain ⟨p, m1, m2, e1, e2, e3⟩ := h1
  obtain ⟨q, n1, n2, f1, f2, f3⟩ := h2
  have hm : m1 ++ .init d (some a) :: m2 = n1 ++ .init d (some c) :: n2 := by
    refine key p q _ _ (by rw [e1] at f1; simpa using f1) ?_ ?_
    · intro op hop
      simp only [List.mem_append, List.mem_cons] at hop
      rcases hop with h | rfl | h
      · exact (e2 op (by simp [h])).1
      · simp
      · exact (e2 op (by simp [h])).1
    · intro op hop
      simp only [List.mem_append, List.mem_cons] at hop
      rcases hop with h | rfl | h
      · exact (f2 op (by simp [h])).1
      · simp
      · exact (f2 op (by simp [h])).1
  clear e1 e2 f1 f2 key
  induction m1 generalizing n1 with
  | nil =>
    cases n1 with
    | nil => simp at hm; exact hm.1
    | cons x n1 =>
      simp only [List.nil_append, List.cons_append, List.cons.injEq] at hm
      exact absurd (by rw [hm.1]; simp) (f3 a)
  | cons y m1 ih =>
    cases n1 with
    | nil =>
      simp only [List.nil_append, List.cons_append, List.cons.injEq] at hm
      exact absurd (by rw [← hm.1]; simp) (e3 c)
    | cons x n1 =>
      simp only [List.cons_append, List.cons.injEq] at hm
      exact ih (fun c hc => e3 c (by simp [hc])) n1 (fun c hc => f3 c (by simp [hc])) hm.2

private theorem alive_split {h : List (Spaces.Op δ A)} (ha : alive h = true) :
    ∃ pre m, h = pre ++ .guard :: m ∧ ∀ op ∈ m, op ≠ .guard ∧ op ≠ .unguard := by
  induction h using List.reverseRecOn with
  | nil => simp [alive] at ha
  | append_singleton h op ih =>
    rw [alive_append] at ha
    cases op with
    | guard => exact ⟨h, [], rfl, by simp⟩
    | unguard => simp at ha
    | init d c =>
      obtain ⟨pre, m, h1, h2⟩ := ih ha
      refine ⟨pre, m ++ [.init d c], by rw [h1]; simp, ?_⟩
      intro op hop
      simp only [List.mem_append, List.mem_singleton] at hop
      rcases hop with hop | rfl
      · exact h2 op hop
      · simp

private theorem readable_init {h : List (Spaces.Op δ A)} (ha : alive h = true) (d : δ) (c : Option A) (x : δ) (a : A) :
    Readable (h ++ [.init d c]) x a ↔ Readable h x a ∨ (x = d ∧ c = some a ∧ ∀ b, ¬ Readable h d b) := by
  obtain ⟨pre, m, h1, h2⟩ := alive_split ha
  constructor
  · intro hr
    have hr' := hr
    obtain ⟨p, m1, m2, e1, e2, e3⟩ := hr
    rcases List.eq_nil_or_concat m2 with rfl | ⟨l, y, rfl⟩
    · have e1' : h ++ [.init d c] = (p ++ .guard :: m1) ++ [.init x (some a)] := by rw [e1]
      obtain ⟨e4, e5⟩ := List.append_inj' e1' rfl
      simp only [List.cons.injEq, Spaces.Op.init.injEq, and_true] at e5
      obtain ⟨rfl, rfl⟩ := e5
      right
      refine ⟨rfl, rfl, ?_⟩
      rintro b hb
      obtain ⟨q, n1, n2, f1, f2, f3⟩ := hb
      -- the first decomposition of the extended history would give both values
      have hb2 : Readable (h ++ [.init d (some a)]) d b :=
        ⟨q, n1, n2 ++ [.init d (some a)], by rw [f1]; simp, by
          intro op hop
          simp only [List.mem_append, List.mem_singleton] at hop
          rcases hop with hop | hop | rfl
          · exact f2 op (by simp [hop])
          · exact f2 op (by simp [hop])
          · simp, f3⟩
      have hmem : Spaces.Op.init d (some b) ∈ m1 := by
        have key : ∀ (pre pre' m m' : List (Spaces.Op δ A)), pre ++ .guard :: m = pre' ++ .guard :: m' →
            (∀ op ∈ m, op ≠ .guard) → (∀ op ∈ m', op ≠ .guard) → m = m' := by
          intro pre pre' m m' he hm hm'
          induction pre generalizing pre' with
          | nil =>
            cases pre' with
            | nil => simpa using he
            | cons x pre' =>
              simp only [List.nil_append, List.cons_append, List.cons.injEq] at he
              exact absurd rfl (hm .guard (by rw [he.2]; simp))
          | cons y pre ih =>
            cases pre' with
            | nil =>
              simp only [List.nil_append, List.cons_append, List.cons.injEq] at he
              exact absurd rfl (hm' .guard (by rw [← he.2]; simp))
            | cons x pre' =>
              simp only [List.cons_append, List.cons.injEq] at he
              exact ih pre' he.2
        have : m1 = n1 ++ .init d (some b) :: n2 := by
          refine key p q _ _ (by rw [← e4, f1]; simp) (fun op hop => (e2 op (by simp [hop])).1) ?_
          intro op hop
          simp only [List.mem_append, List.mem_cons] at hop
          rcases hop with h | rfl | h
          · exact (f2 op (by simp [h])).1
          · simp
          · exact (f2 op (by simp [h])).1
        rw [this]; simp
      exact e3 b hmem
    · left
      have e1' : h ++ [.init d c] = (p ++ .guard :: m1 ++ .init x (some a) :: l) ++ [y] := by rw [e1]; simp
      obtain ⟨e4, _⟩ := List.append_inj' e1' rfl
      refine ⟨p, m1, l, e4, ?_, e3⟩
      intro op hop
      refine e2 op ?_
      simp only [List.mem_append] at hop ⊢
      rcases hop with hop | hop <;> simp [hop]
  · rintro (⟨q, n1, n2, f1, f2, f3⟩ | ⟨rfl, rfl, hno⟩)
    · refine ⟨q, n1, n2 ++ [.init d c], by rw [f1]; simp, ?_, f3⟩
      intro op hop
      simp only [List.mem_append, List.mem_singleton] at hop
      rcases hop with hop | hop | rfl
      · exact f2 op (by simp [hop])
      · exact f2 op (by simp [hop])
      · simp
    · refine ⟨pre, m, [], by rw [h1], by simpa using h2, ?_⟩
      -- otherwise the first constructible initialisation in `m` would be readable
      intro c hc
      have : ∀ m : List (Spaces.Op δ A), .init x (some c) ∈ m → ∃ b m1 m2, m = m1 ++ .init x (some b) :: m2 ∧
          ∀ c, .init x (some c) ∉ m1 := by
        intro m hm
        induction m with
        | nil => simp at hm
        | cons y m ih =>
          by_cases hy : ∃ b, y = .init x (some b)
          · obtain ⟨b, rfl⟩ := hy
            exact ⟨b, [], m, rfl, by simp⟩
          · have hm' : .init x (some c) ∈ m := by
              rcases List.mem_cons.1 hm with h | h
              · exact absurd ⟨c, h.symm⟩ hy
              · exact h
            obtain ⟨b, m1, m2, e1, e2⟩ := ih hm'
            refine ⟨b, y :: m1, m2, by rw [e1]; rfl, ?_⟩
            intro c' hc'
            rcases List.mem_cons.1 hc' with h | h
            · exact hy ⟨c', h.symm⟩
            · exact e2 c' h
      obtain ⟨b, m1, m2, e1, e2⟩ := this m hc
      refine hno b ⟨pre, m1, m2, by rw [h1, e1]; simp, ?_, e2⟩
      intro op hop
      refine h2 op ?_
      rw [e1]
      simp only [List.mem_append, List.mem_cons] at hop ⊢
      rcases hop with h | h <;> simp [h]

/-- State between two calls. -/
private structure Inv (name : δ → κ) (b : Bool) (s : Spaces δ κ A) : Prop where
  closed : b = false → s.store = none ∧ ∀ d, s.dual d = none
  opened : b = true → ∃ m, s.store = some m ∧ (∀ p ∈ m, p.1 = name p.2) ∧ (m.map Prod.snd).Nodup ∧
    ∀ d, d ∈ m.map Prod.snd ↔ (s.dual d).isSome

private theorem foldl_reset (m : List (κ × δ)) (s : Spaces δ κ A) :
    (m.foldl (fun s p => reset s p.2) s).log = s.log ++ m.map Prod.snd ∧
    ∀ d, (m.foldl (fun s p => reset s p.2) s).dual d = if d ∈ m.map Prod.snd then none else s.dual d := by
  induction m generalizing s with
  | nil => simp
  | cons p m ih =>
    obtain ⟨h1, h2⟩ := ih (reset s p.2)
    rw [List.foldl_cons]
    refine ⟨by rw [h1]; simp [reset], ?_⟩
    intro d
    rw [h2]
    simp only [List.map_cons, List.mem_cons]
    by_cases hd : d = p.2
    · simp [reset, hd]
    · by_cases hm : d ∈ m.map Prod.snd <;> simp [hm, hd, reset]

private theorem emplace_new {m : List (κ × δ)} {name : δ → κ} (hinj : ∀ x y, name x = name y → x = y)
    (hk : ∀ p ∈ m, p.1 = name p.2) {d : δ} (hd : d ∉ m.map Prod.snd) : emplace m (name d) d = m ++ [(name d, d)] := by
  rw [emplace, if_neg]
  simp only [List.any_eq_true, decide_eq_true_eq]
  rintro ⟨p, hp, he⟩
  rw [hk p hp] at he
  have := hinj _ _ he
  exact hd (List.mem_map.2 ⟨p, hp, this⟩)

/-- Main induction. -/
private theorem main {name : δ → κ} (hinj : ∀ x y, name x = name y → x = y) (h : List (Spaces.Op δ A))
    (hw : Scoped false h) :
    ∃ s, run name h start = .ok s ∧ Inv name (alive h) s ∧ ∀ d a, s.dual d = some a ↔ Readable h d a := by
  induction h using List.reverseRecOn with
  | nil =>
    refine ⟨start, rfl, ⟨fun _ => ⟨rfl, fun _ => rfl⟩, by simp [alive]⟩, ?_⟩
    intro d a
    simp only [start, reduceCtorEq, false_iff]
    rintro ⟨pre, m1, m2, h, _⟩
    simp at h
  | append_singleton h op ih =>
    obtain ⟨hw1, hw2⟩ := (scoped_append _ _ _).1 hw
    obtain ⟨s, s1, s2, s3⟩ := ih hw1
    have hrun : ∀ s' o, step name s op = .ok (s', o) → run name (h ++ [op]) start = .ok s' := by
      intro s' o ho
      rw [run, List.foldlM_append]
      rw [run] at s1
      rw [s1, Res.ok_bind, List.foldlM_cons, ho]
      rfl
    change Next (alive h) op at hw2
    cases op with
    | guard =>
      have hb : alive h = false := hw2
      obtain ⟨c1, c2⟩ := s2.closed hb
      refine ⟨guardCtor s, hrun _ _ rfl, ⟨?_, ?_⟩, ?_⟩
      · rw [alive_append]; simp
      · intro _
        exact ⟨[], rfl, by simp, by simp, by simp [guardCtor, c2]⟩
      · intro d a
        simp only [guardCtor, c2, reduceCtorEq, false_iff]
        exact readable_guard h _ (.inl rfl) d a
    | unguard =>
      have hb : alive h = true := hw2
      obtain ⟨m, m1, m2, m3, m4⟩ := s2.opened hb
      obtain ⟨f1, f2⟩ := foldl_reset m s
      refine ⟨_, hrun _ _ (by rw [step, guardDtor, m1]; rfl), ⟨?_, ?_⟩, ?_⟩
      · intro _
        refine ⟨rfl, ?_⟩
        intro d
        show (m.foldl (fun s p => reset s p.2) s).dual d = none
        rw [f2]
        split
        · rfl
        · rename_i hd
          rw [m4 d] at hd
          simpa using hd
      · rw [alive_append]; simp
      · intro d a
        have : (m.foldl (fun s p => reset s p.2) s).dual d = none := by
          rw [f2]
          split
          · rfl
          · rename_i hd
            rw [m4 d] at hd
            simpa using hd
        rw [show ({ (m.foldl (fun s p => reset s p.2) s) with store := none } : Spaces δ κ A).dual d = none from this]
        simp only [reduceCtorEq, false_iff]
        exact readable_guard h _ (.inr rfl) d a
    | init d c =>
      have hb : alive h = true := hw2
      obtain ⟨m, m1, m2, m3, m4⟩ := s2.opened hb
      have hal : alive (h ++ [.init d c]) = true := by rw [alive_append]; exact hb
      rw [hal]
      rw [hb] at s2
      cases hd : s.dual d with
      | some b =>
        refine ⟨s, hrun s .threw (by simp only [step, init, hd]), s2, ?_⟩
        intro x a
        rw [readable_init hb, s3]
        constructor
        · exact .inl
        · rintro (h | ⟨rfl, _, h⟩)
          · exact h
          · exact absurd ((s3 x b).1 hd) (h b)
      | none =>
        cases c with
        | none =>
          refine ⟨s, hrun s .threw (by simp only [step, init, hd]), s2, ?_⟩
          intro x a
          rw [readable_init hb, s3]
          simp
        | some a0 =>
          have hnm : d ∉ m.map Prod.snd := by rw [m4, hd]; simp
          refine ⟨⟨some (emplace m (name d) d), fun x => if x = d then some a0 else s.dual x, s.log⟩,
            hrun _ .returned (by simp only [step, init, hd, m1]), ⟨by simp, ?_⟩, ?_⟩
          · intro _
            refine ⟨_, rfl, ?_, ?_, ?_⟩
            · rw [emplace_new hinj m2 hnm]
              intro p hp
              rcases List.mem_append.1 hp with hp | hp
              · exact m2 p hp
              · rw [List.mem_singleton.1 hp]
            · rw [emplace_new hinj m2 hnm, List.map_append]
              refine List.nodup_append.2 ⟨m3, by simp, ?_⟩
              intro x hx y hy
              simp only [List.map_cons, List.map_nil, List.mem_singleton] at hy
              rintro rfl
              exact hnm (hy ▸ hx)
            · intro x
              rw [emplace_new hinj m2 hnm, List.map_append, List.mem_append, m4]
              by_cases hx : x = d <;> simp [hx]
          · intro x a
            rw [readable_init hb, ← s3]
            show (if x = d then some a0 else s.dual x) = some a ↔ _
            by_cases hx : x = d
            · subst hx
              rw [if_pos rfl, hd]
              constructor
              · intro h; exact .inr ⟨rfl, h, fun b hb => by rw [← s3, hd] at hb; cases hb⟩
              · rintro (h | ⟨_, h, _⟩)
                · cases h
                · exact h
            · simp [hx]

/-- **C25, lifetime.**  No well-scoped history is undefined, and after it the attributes of a
dimension are readable exactly when the history puts them between their initialisation and the
end of the guard, with the value given by the first successful initialisation.  Missing with
respect to the claim: histories with nested guards or initialisations outside of a guard, where it is
false (`C25_nested_guards`, `C25_without_guard`), and dimensions with the same type name
(`C25_same_name`). -/
theorem C25_lifetime_partial {name : δ → κ} (hinj : ∀ x y, name x = name y → x = y) (h : List (Spaces.Op δ A))
    (hw : Scoped false h) :
    ∃ s, run name h start = .ok s ∧
      (∀ d a, Spaces.read s d = .ok a ↔ Readable h d a) ∧
      (∀ d, Spaces.read s d = .abort ↔ ¬ ∃ a, Readable h d a) ∧
      (∀ d, isInit s d = true ↔ ∃ a, Readable h d a) := by
  obtain ⟨s, s1, _, s3⟩ := main hinj h hw
  refine ⟨s, s1, ?_, ?_, ?_⟩
  · intro d a
    rw [← s3, Spaces.read]
    cases s.dual d <;> simp
  · intro d
    simp only [← s3, Spaces.read]
    cases s.dual d <;> simp
  · intro d
    simp only [← s3, isInit]
    cases s.dual d <;> simp

/-- **C25, second initialisation.**  It throws and changes nothing, also when its arguments cannot
be used; a first initialisation whose attributes cannot be built throws and changes nothing;
otherwise it returns and makes its attributes readable without touching another dimension. -/
theorem C25_init {name : δ → κ} (hinj : ∀ x y, name x = name y → x = y) (h : List (Spaces.Op δ A))
    (hw : Scoped false h) (ha : alive h = true) (d : δ) (c : Option A) :
    ∃ s s' o, run name h start = .ok s ∧ step name s (.init d c) = .ok (s', o) ∧
      (o = .threw ↔ (∃ a, Readable h d a) ∨ c = none) ∧
      (o = .threw → s' = s) ∧
      (o = .returned → (∃ a, c = some a ∧ Spaces.read s' d = .ok a) ∧
        (∀ x, x ≠ d → Spaces.read s' x = Spaces.read s x) ∧ s'.log = s.log) := by
  obtain ⟨s, s1, s2, s3⟩ := main hinj h hw
  obtain ⟨m, m1, _⟩ := s2.opened ha
  simp only [step, init, ← s3]
  cases hd : s.dual d with
  | some b => exact ⟨s, s, .threw, s1, by simp [hd], by simp [hd], by simp, by simp⟩
  | none =>
    cases c with
    | none => exact ⟨s, s, .threw, s1, by simp [hd], by simp, by simp, by simp⟩
    | some a =>
      refine ⟨s, _, .returned, s1, by simp only [hd, m1]; rfl, by simp [hd], by simp, ?_⟩
      intro _
      refine ⟨⟨a, rfl, by simp [Spaces.read]⟩, ?_, rfl⟩
      intro x hx
      simp [Spaces.read, hx]

/-- **C25, release.**  The end of the guard resets every initialised dimension exactly once and
nothing else, and nothing is readable afterwards; same restrictions as `C25_lifetime_partial`. -/
theorem C25_release_partial {name : δ → κ} (hinj : ∀ x y, name x = name y → x = y) (h : List (Spaces.Op δ A))
    (hw : Scoped false h) (ha : alive h = true) :
    ∃ s s' l, run name h start = .ok s ∧ step name s .unguard = .ok (s', .returned) ∧
      s'.log = s.log ++ l ∧ l.Nodup ∧ (∀ d, d ∈ l ↔ ∃ a, Readable h d a) ∧
      ∀ d, Spaces.read s' d = .abort := by
  obtain ⟨s, s1, s2, s3⟩ := main hinj h hw
  obtain ⟨m, m1, _, m3, m4⟩ := s2.opened ha
  obtain ⟨f1, f2⟩ := foldl_reset m s
  refine ⟨s, { (m.foldl (fun s p => reset s p.2) s) with store := none }, m.map Prod.snd, s1,
    by rw [step, guardDtor, m1]; rfl, f1, m3, ?_, ?_⟩
  · intro d
    simp only [m4, ← s3]
    cases s.dual d <;> simp
  · intro d
    have : (m.foldl (fun s p => reset s p.2) s).dual d = none := by
      rw [f2]
      split
      · rfl
      · rename_i hd
        rw [m4 d] at hd
        simpa using hd
    show (match (m.foldl (fun s p => reset s p.2) s).dual d with | some a => Res.ok a | none => Res.abort) = _
    rw [this]

/-- **C25, the tuple overloads** initialise the dimension with the first component and return the
others; nothing is returned when the initialisation throws. -/
theorem C25_tuple {β : Type} (name : δ → κ) (d : δ) (t : A × List β) (s s' : Spaces δ κ A) (o : Out) (l : List β)
    (h : initTuple name d t s = .ok (s', o, l)) :
    step name s (.init d (some t.1)) = .ok (s', o) ∧ (o = .returned → l = t.2) := by
  rw [initTuple] at h
  obtain ⟨⟨s1, o1⟩, h1, h2⟩ := Res.bind_eq_ok.1 h
  rw [step, h1]
  cases o1 <;> simp only [Res.pure_eq, Res.ok.injEq, Prod.mk.injEq] at h2 <;> obtain ⟨rfl, rfl, rfl⟩ := h2 <;> simp

/-- **C25, listing.**  Under a guard the store lists the name of every initialised dimension exactly
once and no other name; without a guard there is nothing to list. -/
theorem C25_display {name : δ → κ} (hinj : ∀ x y, name x = name y → x = y) (h : List (Spaces.Op δ A))
    (hw : Scoped false h) :
    ∃ s, run name h start = .ok s ∧ (alive h = false → display s = none) ∧
      (alive h = true → ∃ l, display s = some l ∧ l.Nodup ∧ ∀ k, k ∈ l ↔ ∃ d a, name d = k ∧ Readable h d a) := by
  obtain ⟨s, s1, s2, s3⟩ := main hinj h hw
  refine ⟨s, s1, fun hb => by simp [display, (s2.closed hb).1], fun hb => ?_⟩
  obtain ⟨m, m1, m2, m3, m4⟩ := s2.opened hb
  refine ⟨m.map Prod.fst, by simp [display, m1], ?_, ?_⟩
  · have : m.map Prod.fst = (m.map Prod.snd).map name := by
      rw [List.map_map]
      exact List.map_congr_left fun p hp => m2 p hp
    rw [this, List.nodup_iff_pairwise_ne, List.pairwise_map]
    exact (List.nodup_iff_pairwise_ne.1 m3).imp (fun hne he => hne (hinj _ _ he))
  · intro k
    have hk : ∀ d, d ∈ m.map Prod.snd ↔ ∃ a, Readable h d a := by
      intro d
      simp only [m4, ← s3]
      cases s.dual d <;> simp
    constructor
    · intro hm
      obtain ⟨p, hp, rfl⟩ := List.mem_map.1 hm
      obtain ⟨a, ha⟩ := (hk p.2).1 (List.mem_map_of_mem hp)
      exact ⟨p.2, a, (m2 p hp).symm, ha⟩
    · rintro ⟨d, a, rfl, ha⟩
      obtain ⟨p, hp, rfl⟩ := List.mem_map.1 ((hk d).2 ⟨a, ha⟩)
      exact List.mem_map.2 ⟨p, hp, m2 p hp⟩

/-- **C25, dimensions can be initialised again under a new guard.** -/
theorem C25_again {name : δ → κ} (hinj : ∀ x y, name x = name y → x = y) (h : List (Spaces.Op δ A))
    (hw : Scoped false h) (ha : alive h = false) (d : δ) (a : A) :
    ∃ s, run name (h ++ [.guard, .init d (some a)]) start = .ok s ∧ Spaces.read s d = .ok a := by
  have h1 : Scoped false (h ++ [.guard, .init d (some a)]) := by
    rw [show h ++ [.guard, .init d (some a)] = (h ++ [.guard]) ++ [.init d (some a)] by simp, scoped_append, scoped_append]
    refine ⟨⟨hw, ha⟩, ?_⟩
    have := alive_append h (.guard)
    exact this
  obtain ⟨s, s1, s2, _⟩ := C25_lifetime_partial hinj _ h1
  refine ⟨s, s1, (s2 d a).2 ⟨h, [], [], by simp, by simp, by simp⟩⟩

/-- **C25, trivial spaces**: the bounded space of size `n ≥ 0` is the domain of the `n` first
elements. -/
theorem C25_trivial {τ : Type} [DecidableEq τ] (t : τ) (n : I64) :
    initTrivialBounded t n = .ok [(t, (0, n))] ∧ initTrivialHalfBounded t = Dom.front [(t, ((0 : U64), n))] := by
  constructor
  · obtain ⟨d, h1, h2, h3⟩ := Dom.ofSize_ok (b := Elem.createReference t) (n := [(t, n)]) (by simp [Elem.createReference])
      (by simp [Elem.createReference])
    rw [initTrivialBounded, h1]
    congr 1
    have h4 := h3 t 0 n (by simp [Elem.createReference, Tup.get_cons]) (by simp [Tup.get_cons])
    refine Tup.ext_get (by rw [h2]; rfl) (by rw [h2]; simp [Elem.createReference]) ?_
    intro q hq
    rw [h2] at hq
    have : q = t := by simpa [Elem.createReference] using hq
    subst this
    rw [h4, Tup.get_cons, if_pos rfl]
    simp
  · rfl

/-- **Disagreement, nested guards.**  A second guard forgets the resetters of the first one: the
dimension stays initialised after both scopes should have ended, and the end of the first guard
dereferences an empty optional. -/
theorem C25_nested_guards : ∃ s : Spaces Char Char Nat,
    run id [.guard, .init 'x' (some 7), .guard, .unguard] start = .ok s ∧ Spaces.read s 'x' = .ok 7 ∧
    step id s .unguard = .ub := by
  exact ⟨_, rfl, rfl, rfl⟩

/-- **Disagreement, no guard.**  Initialising a dimension without a guard is undefined instead of
an error. -/
theorem C25_without_guard : step id (start : Spaces Char Char Nat) (.init 'x' (some 7)) = .ub := rfl

/-- **Disagreement, names.**  `typeid(T).name()` need not be distinct for distinct types (local or
unnamed-namespace types): the resetter of the second dimension is dropped, its attributes outlive
the guard and it cannot be initialised under the next guard. -/
theorem C25_same_name : ∃ s s' : Spaces Char Char Nat,
    run (fun _ => 'n') [.guard, .init 'x' (some 7), .init 'y' (some 8), .unguard, .guard] start = .ok s ∧
    Spaces.read s 'y' = .ok 8 ∧ step (fun _ => 'n') s (.init 'y' (some 9)) = .ok (s', .threw) := by
  exact ⟨_, _, rfl, rfl, rfl⟩

/-! Non-vacuity. -/
example : Scoped false ([.guard, .init 'x' (some 1), .init 'x' (some 2), .unguard, .guard, .init 'x' (some 3)] : List (Spaces.Op Char Nat)) := by
  simp [Scoped]
example : Readable ([.guard, .init 'x' (some 1), .unguard, .guard, .init 'x' (some 3), .init 'x' (some 4)] : List (Spaces.Op Char Nat)) 'x' 3 :=
  ⟨[.guard, .init 'x' (some 1), .unguard], [], [.init 'x' (some 4)], rfl, by simp, by simp⟩

end DDC.Props
