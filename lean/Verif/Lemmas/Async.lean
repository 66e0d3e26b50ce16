import Verif.Spec.Async

/-! # Commuting kernels, and programs whose accesses are ordered -/

namespace DDC.Async

open Spec

variable {V : Type} {W : World V}

theorem Kernel.run_ok {k : Kernel} {m m' : Mem V} :
    k.run W m = .ok m' ↔ (∀ b ∈ k.touches, (m b).isSome) ∧
      m' = fun b => if b ∈ k.writes then some (W.effect k (fun c => if c ∈ k.touches then m c else none) b) else m b := by
  unfold Kernel.run
  split
  · next h =>
    rw [List.all_eq_true] at h
    constructor
    · intro e
      exact ⟨h, (Res.ok.inj e).symm⟩
    · rintro ⟨_, e⟩
      rw [e]
  · next h =>
    rw [List.all_eq_true] at h
    constructor
    · intro e
      exact absurd e (by simp)
    · rintro ⟨e, _⟩
      exact absurd e h

theorem Kernel.mem_touches_of_writes {k : Kernel} {b : Nat} (h : b ∈ k.writes) : b ∈ k.touches := by
  simp [Kernel.touches, h]

theorem Kernel.conflicts_false {k l : Kernel} :
    k.conflicts l = false ↔ (∀ b ∈ k.writes, b ∉ l.touches) ∧ (∀ b ∈ l.writes, b ∉ k.touches) := by
  simp [Kernel.conflicts, List.any_eq_false]

theorem Kernel.run_isSome {k : Kernel} {m m' : Mem V} (h : k.run W m = .ok m') (b : Nat) :
    (m' b).isSome = (m b).isSome := by
  obtain ⟨hl, rfl⟩ := Kernel.run_ok.1 h
  dsimp only
  split
  · next hb => simp [hl b (mem_touches_of_writes hb)]
  · rfl

theorem Kernel.run_frame {k : Kernel} {m m' : Mem V} (h : k.run W m = .ok m') {b : Nat} (hb : b ∉ k.writes) :
    m' b = m b := by
  obtain ⟨_, rfl⟩ := Kernel.run_ok.1 h
  simp [hb]

/-- Two kernels that do not conflict can change places. -/
theorem Kernel.run_comm {k l : Kernel} (hc : k.conflicts l = false) {m m₁ m₂ : Mem V} (hk : k.run W m = .ok m₁)
    (hl : l.run W m₁ = .ok m₂) : ∃ m', l.run W m = .ok m' ∧ k.run W m' = .ok m₂ := by
  obtain ⟨c1, c2⟩ := Kernel.conflicts_false.1 hc
  obtain ⟨lk, ek⟩ := Kernel.run_ok.1 hk
  obtain ⟨ll, el⟩ := Kernel.run_ok.1 hl
  have same : (fun c => if c ∈ l.touches then m₁ c else none) = fun c => if c ∈ l.touches then m c else none := by
    funext c
    split
    · next h => exact Kernel.run_frame hk (fun hw => c1 c hw h)
    · rfl
  have hl' : l.run W m = .ok _ :=
    Kernel.run_ok.2 ⟨fun b hb => (Kernel.run_isSome hk b) ▸ ll b hb, rfl⟩
  refine ⟨_, hl', Kernel.run_ok.2 ⟨fun b hb => ?_, ?_⟩⟩
  · rw [Kernel.run_isSome hl' b]
    exact lk b hb
  · have same' : (fun c => if c ∈ k.touches then
        (if c ∈ l.writes then some (W.effect l (fun c => if c ∈ l.touches then m c else none) c) else m c) else none)
        = fun c => if c ∈ k.touches then m c else none := by
      funext c
      split
      · next h => rw [if_neg (fun hw => c2 c hw h)]
      · rfl
    rw [same', el, same, ek]
    funext b
    by_cases h1 : b ∈ l.writes
    · rw [if_pos h1, if_neg (fun hw => c2 b h1 (mem_touches_of_writes hw)), if_pos h1]
    · rw [if_neg h1, if_neg h1]

/-- A buffer that the kernel does not touch can change before or after. -/
theorem Kernel.run_set {k : Kernel} {b : Nat} (hb : b ∉ k.touches) {m m' : Mem V} (h : k.run W m = .ok m')
    (o : Option V) : k.run W (m.set b o) = .ok (m'.set b o) := by
  obtain ⟨hl, rfl⟩ := Kernel.run_ok.1 h
  have ne : ∀ c ∈ k.touches, c ≠ b := fun c hc e => hb (e ▸ hc)
  refine Kernel.run_ok.2 ⟨fun c hc => ?_, ?_⟩
  · simp [Mem.set, ne c hc, hl c hc]
  · have same : (fun c => if c ∈ k.touches then m.set b o c else none) = fun c => if c ∈ k.touches then m c else none := by
      funext c
      split
      · next h => simp [Mem.set, ne c h]
      · rfl
    rw [same]
    funext c
    by_cases hc : c ∈ k.writes
    · simp [Mem.set, hc, ne c (mem_touches_of_writes hc)]
    · simp [Mem.set, hc]

theorem flush_append (P Q : List (Nat × Kernel)) (m : Mem V) :
    flush W (P ++ Q) m = (flush W P m >>= flush W Q) := by
  induction P generalizing m with
  | nil => rfl
  | cons e P ih =>
    simp only [List.cons_append, flush]
    cases e.2.run W m <;> simp [ih]

theorem flush_isSome {P : List (Nat × Kernel)} {m m' : Mem V} (h : flush W P m = .ok m') (b : Nat) :
    (m' b).isSome = (m b).isSome := by
  induction P generalizing m with
  | nil => cases h; rfl
  | cons e P ih =>
    obtain ⟨m1, h1, h2⟩ := Res.bind_eq_ok.1 h
    rw [ih h2, Kernel.run_isSome h1]

theorem flush_live {P : List (Nat × Kernel)} {m m' : Mem V} (h : flush W P m = .ok m') {e : Nat × Kernel} (he : e ∈ P)
    {b : Nat} (hb : b ∈ e.2.touches) : (m b).isSome := by
  induction P generalizing m with
  | nil => cases he
  | cons f P ih =>
    obtain ⟨m1, h1, h2⟩ := Res.bind_eq_ok.1 h
    rcases List.mem_cons.1 he with rfl | he
    · exact (Kernel.run_ok.1 h1).1 b hb
    · rw [← Kernel.run_isSome h1]
      exact ih h2 he

theorem flush_set {P : List (Nat × Kernel)} {b : Nat} (hb : ∀ e ∈ P, b ∉ e.2.touches) {m m' : Mem V}
    (h : flush W P m = .ok m') (o : Option V) : flush W P (m.set b o) = .ok (m'.set b o) := by
  induction P generalizing m with
  | nil => cases h; rfl
  | cons e P ih =>
    obtain ⟨m1, h1, h2⟩ := Res.bind_eq_ok.1 h
    simp only [flush]
    rw [Kernel.run_set (hb e (by simp)) h1]
    exact ih (fun f hf => hb f (List.mem_cons_of_mem _ hf)) h2

/-- A kernel that conflicts with none of the others can run first. -/
theorem flush_comm {P : List (Nat × Kernel)} {k : Kernel} (hc : ∀ e ∈ P, e.2.conflicts k = false) {m m₁ m₂ : Mem V}
    (h1 : flush W P m = .ok m₁) (h2 : k.run W m₁ = .ok m₂) : ∃ m', k.run W m = .ok m' ∧ flush W P m' = .ok m₂ := by
  induction P generalizing m with
  | nil => cases h1; exact ⟨m₂, h2, rfl⟩
  | cons e P ih =>
    obtain ⟨me, he, hP⟩ := Res.bind_eq_ok.1 h1
    obtain ⟨m', hk, hf⟩ := ih (fun f hf => hc f (List.mem_cons_of_mem _ hf)) hP
    obtain ⟨m'', hk', he'⟩ := Kernel.run_comm (hc e (by simp)) he hk
    exact ⟨m'', hk', Res.bind_eq_ok.2 ⟨m', he', hf⟩⟩

theorem popFirst_none {i : Nat} {P : List (Nat × Kernel)} : popFirst i P = none ↔ ∀ e ∈ P, e.1 ≠ i := by
  induction P with
  | nil => simp [popFirst]
  | cons e P ih =>
    simp only [popFirst]
    split
    · next h => simp [h]
    · next h => simp [h, ih]

theorem popFirst_some {i : Nat} {P Q : List (Nat × Kernel)} {k : Kernel} (h : popFirst i P = some (k, Q)) :
    ∃ A B, P = A ++ (i, k) :: B ∧ Q = A ++ B ∧ ∀ e ∈ A, e.1 ≠ i := by
  induction P generalizing Q with
  | nil => cases h
  | cons e P ih =>
    simp only [popFirst] at h
    split at h
    · next he =>
      cases h
      exact ⟨[], P, by simp [← he], rfl, by simp⟩
    · next he =>
      obtain ⟨⟨k', Q'⟩, h1, h2⟩ := Option.map_eq_some_iff.1 h
      obtain ⟨rfl, rfl⟩ := Prod.mk.inj h2
      obtain ⟨A, B, rfl, rfl, hA⟩ := ih h1
      exact ⟨e :: A, B, rfl, rfl, fun f hf => by
        rcases List.mem_cons.1 hf with rfl | hf
        · exact he
        · exact hA f hf⟩

/-! ## Programs whose accesses are ordered -/

/-- `P` contains the kernels that may wait; no access of the program conflicts with one that nothing orders before. -/
def Disc (cfg : Config) : List (Nat × Kernel) → List Cmd → Prop
  | _, [] => True
  | P, .launch i k :: p => (∀ e ∈ P, e.1 ≠ i → e.2.conflicts k = false) ∧ Disc cfg (P ++ [(i, k)]) p
  | _, .fence :: p => Disc cfg [] p
  | P, .fenceOn i :: p => Disc cfg (P.filter fun e => e.1 != i) p
  | P, .host k :: p => (∀ e ∈ P, e.2.conflicts k = false) ∧ Disc cfg P p
  | P, .alloc _ :: p => Disc cfg P p
  | P, .free b :: p => if cfg.freeWaits then Disc cfg [] p else (∀ e ∈ P, b ∉ e.2.touches) ∧ Disc cfg P p

/-- The kernels that may wait after the program. -/
def rest (cfg : Config) : List (Nat × Kernel) → List Cmd → List (Nat × Kernel)
  | P, [] => P
  | P, .launch i k :: p => rest cfg (P ++ [(i, k)]) p
  | _, .fence :: p => rest cfg [] p
  | P, .fenceOn i :: p => rest cfg (P.filter fun e => e.1 != i) p
  | P, .host _ :: p => rest cfg P p
  | P, .alloc _ :: p => rest cfg P p
  | P, .free _ :: p => if cfg.freeWaits then rest cfg [] p else rest cfg P p

theorem Disc_append {cfg : Config} {P : List (Nat × Kernel)} {p q : List Cmd} :
    Disc cfg P (p ++ q) ↔ Disc cfg P p ∧ Disc cfg (rest cfg P p) q := by
  induction p generalizing P with
  | nil => simp [Disc, rest]
  | cons c p ih =>
    cases c <;> simp only [List.cons_append, Disc, rest, ih, and_assoc]
    split <;> simp [and_assoc]

theorem rest_append {cfg : Config} {P : List (Nat × Kernel)} {p q : List Cmd} :
    rest cfg P (p ++ q) = rest cfg (rest cfg P p) q := by
  induction p generalizing P with
  | nil => rfl
  | cons c p ih =>
    cases c <;> simp only [List.cons_append, rest, ih]
    split <;> rfl

/-- The invariant. -/
structure Inv (cfg : Config) (W : World V) (s : State V) (P : List (Nat × Kernel)) (final : Mem V) : Prop where
  sub : ∀ e ∈ s.pending, e ∈ P
  ordered : s.pending.Pairwise fun e f => e.1 ≠ f.1 → e.2.conflicts f.2 = false
  disc : Disc cfg P s.prog
  value : (flush W s.pending s.mem >>= sync W s.prog) = .ok final

theorem Inv.step {cfg : Config} {s : State V} {P : List (Nat × Kernel)} {final : Mem V} (h : Inv cfg W s P final)
    (w : Who) : ∃ s' P', s.step cfg W w = .ok s' ∧ Inv cfg W s' P' final ∧ rest cfg P' s'.prog = rest cfg P s.prog := by
  obtain ⟨mem, pending, prog⟩ := s
  obtain ⟨sub, ordered, disc, value⟩ := h
  dsimp only at sub ordered disc value
  obtain ⟨m₁, hf, hs⟩ := Res.bind_eq_ok.1 value
  cases w with
  | device i =>
    simp only [State.step]
    cases hp : popFirst i pending with
    | none => exact ⟨_, P, rfl, ⟨sub, ordered, disc, value⟩, rfl⟩
    | some r =>
      obtain ⟨k, Q⟩ := r
      obtain ⟨A, B, rfl, rfl, hA⟩ := popFirst_some hp
      rw [flush_append] at hf
      obtain ⟨m2, h2, h3⟩ := Res.bind_eq_ok.1 hf
      obtain ⟨m3, h3, h4⟩ := Res.bind_eq_ok.1 h3
      have hc : ∀ e ∈ A, e.2.conflicts k = false := fun e he =>
        (List.pairwise_append.1 ordered).2.2 e he (i, k) (by simp) (hA e he)
      obtain ⟨m', hk, hA'⟩ := flush_comm hc h2 h3
      dsimp only
      rw [hk]
      refine ⟨_, P, rfl, ⟨fun e he => sub e ?_, ?_, disc, ?_⟩, rfl⟩
      · dsimp only at he
        rcases List.mem_append.1 he with he | he
        · exact List.mem_append.2 (.inl he)
        · exact List.mem_append.2 (.inr (List.mem_cons_of_mem _ he))
      · exact ordered.sublist (List.Sublist.append_left (List.sublist_cons_self _ _) _)
      · dsimp only
        rw [flush_append, hA']
        exact Res.bind_eq_ok.2 ⟨m₁, h4, hs⟩
  | host =>
    simp only [State.step]
    cases prog with
    | nil => exact ⟨_, P, rfl, ⟨sub, ordered, disc, value⟩, rfl⟩
    | cons c p =>
      cases c with
      | launch i k =>
        obtain ⟨d1, d2⟩ := disc
        have hn : pending.any (fun e => e.1 != i && e.2.conflicts k) = false := by
          rw [List.any_eq_false]
          intro e he hh
          rw [Bool.and_eq_true, bne_iff_ne] at hh
          exact absurd hh.2 (by simp [d1 e (sub e he) hh.1])
        dsimp only
        rw [if_neg (by simp [hn])]
        refine ⟨_, P ++ [(i, k)], rfl, ⟨fun e he => ?_, ?_, d2, ?_⟩, rfl⟩
        · rcases List.mem_append.1 he with he | he
          · exact List.mem_append.2 (.inl (sub e he))
          · exact List.mem_append.2 (.inr he)
        · refine List.pairwise_append.2 ⟨ordered, List.pairwise_singleton _ _, fun e he f hf => ?_⟩
          rw [List.mem_singleton.1 hf]
          exact d1 e (sub e he)
        · dsimp only
          rw [flush_append, hf]
          obtain ⟨m', a, b⟩ := Res.bind_eq_ok.1 hs
          refine Res.bind_eq_ok.2 ⟨m', ?_, b⟩
          show (k.run W m₁ >>= fun m => flush W [] m) = _
          rw [a]
          rfl
      | fence =>
        dsimp only
        split
        · next he =>
          rw [List.isEmpty_iff] at he
          subst he
          exact ⟨_, [], rfl, ⟨by simp, List.Pairwise.nil, disc, value⟩, rfl⟩
        · exact ⟨_, P, rfl, ⟨sub, ordered, disc, value⟩, rfl⟩
      | fenceOn i =>
        dsimp only
        split
        · exact ⟨_, P, rfl, ⟨sub, ordered, disc, value⟩, rfl⟩
        · next hn =>
          refine ⟨_, P.filter fun e => e.1 != i, rfl, ⟨fun e he => List.mem_filter.2 ⟨sub e he, ?_⟩, ordered, disc,
            value⟩, rfl⟩
          simp only [Bool.not_eq_true, List.any_eq_false] at hn
          have := hn e he
          simpa using this
      | host k =>
        obtain ⟨d1, d2⟩ := disc
        have hn : pending.any (fun e => e.2.conflicts k) = false := by
          rw [List.any_eq_false]
          intro e he
          simp [d1 e (sub e he)]
        obtain ⟨m2, a, b⟩ := Res.bind_eq_ok.1 hs
        obtain ⟨m', hk, hP⟩ := flush_comm (fun e he => d1 e (sub e he)) hf a
        dsimp only
        rw [if_neg (by simp [hn]), hk]
        exact ⟨_, P, rfl, ⟨sub, ordered, d2, Res.bind_eq_ok.2 ⟨m2, hP, b⟩⟩, rfl⟩
      | alloc b =>
        simp only [sync] at hs
        have hb1 : m₁ b = none := by
          cases hm : m₁ b with
          | none => rfl
          | some v => rw [hm] at hs; cases hs
        rw [hb1] at hs
        have hb : mem b = none := by
          have := flush_isSome hf b
          rw [hb1] at this
          simpa using this.symm
        dsimp only
        rw [hb]
        refine ⟨_, P, rfl, ⟨sub, ordered, disc, Res.bind_eq_ok.2 ⟨_, flush_set (fun e he hin => ?_) hf _, hs⟩⟩, rfl⟩
        have := flush_live hf he hin
        simp [hb] at this
      | free b =>
        simp only [sync] at hs
        have hb1 : ∃ v, m₁ b = some v := by
          cases hm : m₁ b with
          | none => rw [hm] at hs; cases hs
          | some v => exact ⟨v, rfl⟩
        obtain ⟨v, hb1⟩ := hb1
        rw [hb1] at hs
        have hb : ∃ v, mem b = some v := by
          have := flush_isSome hf b
          rw [hb1] at this
          exact Option.isSome_iff_exists.1 (by simpa using this.symm)
        obtain ⟨v', hb⟩ := hb
        dsimp only
        split
        · exact ⟨_, P, rfl, ⟨sub, ordered, disc, value⟩, rfl⟩
        · next hw =>
          have key : ∃ P', (∀ e ∈ pending, e ∈ P') ∧ (∀ e ∈ pending, b ∉ e.2.touches) ∧ Disc cfg P' p ∧
              rest cfg P' p = rest cfg P (.free b :: p) := by
            simp only [Disc, rest] at disc ⊢
            cases hc : cfg.freeWaits with
            | true =>
              have he : pending = [] := by simpa [hc] using hw
              subst he
              exact ⟨[], by simp, by simp, by simpa [hc] using disc, by simp⟩
            | false =>
              rw [hc] at disc
              simp only [Bool.false_eq_true, if_false] at disc
              exact ⟨P, sub, fun e he => disc.1 e (sub e he), disc.2, by simp⟩
          obtain ⟨P', s1, s2, s3, s4⟩ := key
          rw [if_neg (by
            rw [Bool.not_eq_true, List.any_eq_false]
            intro e he
            simp [s2 e he]), hb]
          exact ⟨_, P', rfl, ⟨s1, ordered, s3, Res.bind_eq_ok.2 ⟨_, flush_set s2 hf none, hs⟩⟩, s4⟩

theorem Inv.exec {cfg : Config} {s : State V} {P : List (Nat × Kernel)} {final : Mem V} (h : Inv cfg W s P final)
    (ws : List Who) : ∃ s' P', s.exec cfg W ws = .ok s' ∧ Inv cfg W s' P' final ∧
      rest cfg P' s'.prog = rest cfg P s.prog := by
  induction ws generalizing s P with
  | nil => exact ⟨s, P, rfl, h, rfl⟩
  | cons w ws ih =>
    obtain ⟨s1, P1, e1, h1, r1⟩ := h.step w
    obtain ⟨s2, P2, e2, h2, r2⟩ := ih h1
    exact ⟨s2, P2, Res.bind_eq_ok.2 ⟨s1, e1, e2⟩, h2, r2.trans r1⟩

theorem exec_append {cfg : Config} {s s' : State V} {ws ws' : List Who} (h : s.exec cfg W ws = .ok s') :
    s.exec cfg W (ws ++ ws') = s'.exec cfg W ws' := by
  induction ws generalizing s with
  | nil => cases h; rfl
  | cons w ws ih =>
    obtain ⟨s1, h1, h2⟩ := Res.bind_eq_ok.1 h
    show (s.step cfg W w >>= fun s' => s'.exec cfg W (ws ++ ws')) = _
    rw [h1]
    exact ih h2

theorem Inv.asIfSynchronous {cfg : Config} {s : State V} {P : List (Nat × Kernel)} {final : Mem V}
    (h : Inv cfg W s P final) : AsIfSynchronous cfg W s final := by
  intro ws
  obtain ⟨s', P', e, h', _⟩ := h.exec ws
  refine ⟨s', e, fun hp hq => ?_⟩
  have := h'.value
  rw [hp, hq] at this
  exact Res.ok.inj this

theorem Inv.returns {cfg : Config} {s : State V} {P : List (Nat × Kernel)} {final : Mem V} (h : Inv cfg W s P final)
    (hr : rest cfg P s.prog = []) : ReturnsSynchronised cfg W s := by
  intro ws s' e hp
  obtain ⟨s'', P', e', h', r⟩ := h.exec ws
  rw [e] at e'
  cases e'
  rw [hp, hr] at r
  exact List.eq_nil_iff_forall_not_mem.2 fun x hx => by
    have := h'.sub x hx
    rw [show P' = [] from r] at this
    cases this

/-- The state can always be driven to the end. -/
theorem Inv.finish {cfg : Config} {final : Mem V} (n : Nat) : ∀ {s : State V} {P : List (Nat × Kernel)},
    Inv cfg W s P final → 2 * s.prog.length + s.pending.length ≤ n →
    ∃ ws s', s.exec cfg W ws = .ok s' ∧ s'.prog = [] ∧ s'.pending = [] := by
  induction n with
  | zero =>
    intro s P h hn
    exact ⟨[], s, rfl, List.length_eq_zero_iff.1 (by omega), List.length_eq_zero_iff.1 (by omega)⟩
  | succ n ih =>
    intro s P h hn
    have go : ∀ w, (∀ s', s.step cfg W w = .ok s' → 2 * s'.prog.length + s'.pending.length ≤ n) →
        ∃ ws s', s.exec cfg W ws = .ok s' ∧ s'.prog = [] ∧ s'.pending = [] := by
      intro w hw
      obtain ⟨s1, P1, e1, h1, _⟩ := h.step w
      obtain ⟨ws, s', e, r⟩ := ih h1 (hw s1 e1)
      exact ⟨w :: ws, s', Res.bind_eq_ok.2 ⟨s1, e1, e⟩, r⟩
    obtain ⟨mem, pending, prog⟩ := s
    dsimp only at hn
    cases pending with
    | cons e Q =>
      refine go (.device e.1) fun s' hs => ?_
      simp only [State.step, popFirst, if_true] at hs
      obtain ⟨m, _, hm⟩ := Res.bind_eq_ok.1 hs
      rw [← Res.ok.inj hm]
      simp only [List.length_cons] at hn ⊢
      omega
    | nil =>
      cases prog with
      | nil => exact ⟨[], _, rfl, rfl, rfl⟩
      | cons c p =>
        refine go .host fun s' hs => ?_
        simp only [List.length_cons, List.length_nil] at hn
        cases c with
        | launch i k =>
          simp only [State.step, List.any_nil, Bool.false_eq_true, if_false] at hs
          rw [← Res.ok.inj hs]
          simp
          omega
        | fence =>
          simp only [State.step, List.isEmpty_nil, if_true] at hs
          rw [← Res.ok.inj hs]
          simp
          omega
        | fenceOn i =>
          simp only [State.step, List.any_nil, Bool.false_eq_true, if_false] at hs
          rw [← Res.ok.inj hs]
          simp
          omega
        | host k =>
          simp only [State.step, List.any_nil, Bool.false_eq_true, if_false] at hs
          obtain ⟨m, _, hm⟩ := Res.bind_eq_ok.1 hs
          rw [← Res.ok.inj hm]
          simp
          omega
        | alloc b =>
          simp only [State.step] at hs
          split at hs
          · cases hs
          · rw [← Res.ok.inj hs]
            simp
            omega
        | free b =>
          simp only [State.step, List.isEmpty_nil, Bool.not_true, Bool.and_false, Bool.false_eq_true, if_false,
            List.any_nil] at hs
          split at hs
          · cases hs
          · rw [← Res.ok.inj hs]
            simp
            omega

theorem Inv.canFinish {cfg : Config} {s : State V} {P : List (Nat × Kernel)} {final : Mem V}
    (h : Inv cfg W s P final) : CanFinish cfg W s := by
  intro ws s' e
  obtain ⟨s'', P', e', h', _⟩ := h.exec ws
  rw [e] at e'
  cases e'
  exact h'.finish _ le_rfl

end DDC.Async
