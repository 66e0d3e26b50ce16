import Verif.Lemmas.Async

/-! # The live buffers of a program -/

namespace DDC.Async

open Spec

variable {V : Type} {W : World V}

/-- One more buffer. -/
def ins (b : Nat) (L : Nat → Prop) : Nat → Prop := fun c => c = b ∨ L c

/-- One buffer less. -/
def del (b : Nat) (L : Nat → Prop) : Nat → Prop := fun c => c ≠ b ∧ L c

theorem del_ins {b : Nat} {L : Nat → Prop} (h : ¬L b) : del b (ins b L) = L := by
  funext c
  refine propext ⟨fun hc => hc.2.resolve_left hc.1, fun hc => ⟨fun e => h (e ▸ hc), .inr hc⟩⟩

theorem ins_comm (b c : Nat) (L : Nat → Prop) : ins b (ins c L) = ins c (ins b L) := by
  funext d
  refine propext ⟨fun h => ?_, fun h => ?_⟩ <;> rcases h with h | h | h
  · exact .inr (.inl h)
  · exact .inl h
  · exact .inr (.inr h)
  · exact .inr (.inl h)
  · exact .inl h
  · exact .inr (.inr h)

/-- The buffers that a command changes. -/
def Cmd.changes : Cmd → List Nat
  | .launch _ k => k.writes
  | .host k => k.writes
  | .alloc b => [b]
  | .free b => [b]
  | _ => []

/-- Every buffer of the program is live when it is used. -/
def good : (Nat → Prop) → List Cmd → Prop
  | _, [] => True
  | L, .launch _ k :: p => (∀ b ∈ k.touches, L b) ∧ good L p
  | L, .host k :: p => (∀ b ∈ k.touches, L b) ∧ good L p
  | L, .fence :: p => good L p
  | L, .fenceOn _ :: p => good L p
  | L, .alloc b :: p => ¬L b ∧ good (ins b L) p
  | L, .free b :: p => L b ∧ good (del b L) p

/-- The live buffers after the program. -/
def after : (Nat → Prop) → List Cmd → (Nat → Prop)
  | L, [] => L
  | L, .launch _ _ :: p => after L p
  | L, .host _ :: p => after L p
  | L, .fence :: p => after L p
  | L, .fenceOn _ :: p => after L p
  | L, .alloc b :: p => after (ins b L) p
  | L, .free b :: p => after (del b L) p

theorem good_append {L : Nat → Prop} {p q : List Cmd} : good L (p ++ q) ↔ good L p ∧ good (after L p) q := by
  induction p generalizing L with
  | nil => simp [good, after]
  | cons c p ih => cases c <;> simp only [List.cons_append, good, after, ih, and_assoc]

theorem after_append {L : Nat → Prop} {p q : List Cmd} : after L (p ++ q) = after (after L p) q := by
  induction p generalizing L with
  | nil => rfl
  | cons c p ih => cases c <;> simp only [List.cons_append, after, ih]

theorem sync_append {p q : List Cmd} {m : Mem V} : sync W (p ++ q) m = (sync W p m >>= sync W q) := by
  induction p generalizing m with
  | nil => rfl
  | cons c p ih =>
    cases c with
    | launch i k => simp only [List.cons_append, sync, ih]; cases k.run W m <;> rfl
    | host k => simp only [List.cons_append, sync, ih]; cases k.run W m <;> rfl
    | fence => simp only [List.cons_append, sync, ih]
    | fenceOn i => simp only [List.cons_append, sync, ih]
    | alloc b => simp only [List.cons_append, sync, ih]; cases m b <;> rfl
    | free b => simp only [List.cons_append, sync, ih]; cases m b <;> rfl

theorem sync_good {L : Nat → Prop} {p : List Cmd} {m : Mem V} (hm : ∀ b, (m b).isSome ↔ L b) (h : good L p) :
    ∃ m', sync W p m = .ok m' ∧ ∀ b, (m' b).isSome ↔ after L p b := by
  induction p generalizing L m with
  | nil => exact ⟨m, rfl, hm⟩
  | cons c p ih =>
    cases c with
    | launch i k =>
      have hr := (Kernel.run_ok (W := W) (k := k) (m := m)).2 ⟨fun b hb => (hm b).2 (h.1 b hb), rfl⟩
      simp only [sync]
      rw [hr]
      exact ih (fun b => by rw [Kernel.run_isSome hr, hm]) h.2
    | host k =>
      have hr := (Kernel.run_ok (W := W) (k := k) (m := m)).2 ⟨fun b hb => (hm b).2 (h.1 b hb), rfl⟩
      simp only [sync]
      rw [hr]
      exact ih (fun b => by rw [Kernel.run_isSome hr, hm]) h.2
    | fence => exact ih hm h
    | fenceOn i => exact ih hm h
    | alloc b =>
      have hb : m b = none := by
        cases hb : m b with
        | none => rfl
        | some v => exact absurd ((hm b).1 (by simp [hb])) h.1
      simp only [sync, hb]
      refine ih (fun c => ?_) h.2
      by_cases hc : c = b <;> simp [Mem.set, ins, hc, hm]
    | free b =>
      obtain ⟨v, hb⟩ := Option.isSome_iff_exists.1 ((hm b).2 h.1)
      simp only [sync, hb]
      refine ih (fun c => ?_) h.2
      by_cases hc : c = b <;> simp [Mem.set, del, hc, hm]

theorem sync_frame {p : List Cmd} {m m' : Mem V} (h : sync W p m = .ok m') {b : Nat}
    (hb : ∀ c ∈ p, b ∉ c.changes) : m' b = m b := by
  induction p generalizing m with
  | nil => cases h; rfl
  | cons c p ih =>
    have hc := hb c (by simp)
    have hp : ∀ c ∈ p, b ∉ c.changes := fun d hd => hb d (List.mem_cons_of_mem _ hd)
    cases c with
    | launch i k =>
      obtain ⟨m1, h1, h2⟩ := Res.bind_eq_ok.1 h
      rw [ih h2 hp, Kernel.run_frame h1 hc]
    | host k =>
      obtain ⟨m1, h1, h2⟩ := Res.bind_eq_ok.1 h
      rw [ih h2 hp, Kernel.run_frame h1 hc]
    | fence => exact ih h hp
    | fenceOn i => exact ih h hp
    | alloc d =>
      simp only [sync] at h
      split at h
      · cases h
      · rw [ih h hp]
        simp only [Cmd.changes, List.mem_singleton] at hc
        simp [Mem.set, hc]
    | free d =>
      simp only [sync] at h
      split at h
      · rw [ih h hp]
        simp only [Cmd.changes, List.mem_singleton] at hc
        simp [Mem.set, hc]
      · cases h

/-! ## Programs on one instance -/

/-- The command launches on the instance `i` only and has no access of the host. -/
def Cmd.On (i : Nat) : Cmd → Prop
  | .launch j _ => j = i
  | .host _ => False
  | _ => True

theorem disc_on {cfg : Config} (hw : cfg.freeWaits = true) {i : Nat} {p : List Cmd} (hp : ∀ c ∈ p, c.On i)
    {P : List (Nat × Kernel)} (hq : ∀ e ∈ P, e.1 ≠ i → ∀ b ∈ e.2.touches, ∀ c ∈ p, b ∉ buffers c) : Disc cfg P p := by
  induction p generalizing P with
  | nil => trivial
  | cons c p ih =>
    have hc := hp c (by simp)
    have hp' : ∀ c ∈ p, c.On i := fun d hd => hp d (List.mem_cons_of_mem _ hd)
    have hq' : ∀ e ∈ P, e.1 ≠ i → ∀ b ∈ e.2.touches, ∀ c ∈ p, b ∉ buffers c :=
      fun e he hi b hb d hd => hq e he hi b hb d (List.mem_cons_of_mem _ hd)
    cases c with
    | launch j k =>
      have hj : j = i := hc
      subst hj
      refine ⟨fun e he hi => Kernel.conflicts_false.2 ⟨fun b hb hb' => ?_, fun b hb hb' => ?_⟩, ih hp' fun e he hi => ?_⟩
      · exact hq e he hi b (Kernel.mem_touches_of_writes hb) (.launch j k) (by simp) hb'
      · exact hq e he hi b hb' (.launch j k) (by simp) (Kernel.mem_touches_of_writes hb)
      · rcases List.mem_append.1 he with he | he
        · exact hq' e he hi
        · rw [List.mem_singleton.1 he] at hi
          exact absurd rfl hi
    | host k => exact hc.elim
    | fence => exact ih hp' (by simp)
    | fenceOn j => exact ih hp' fun e he => hq' e (List.mem_filter.1 he).1
    | alloc b => exact ih hp' hq'
    | free b =>
      show if cfg.freeWaits then Disc cfg [] p else _
      rw [if_pos hw]
      exact ih hp' (by simp)

/-! ## The functions -/

theorem good_deepCopy {L : Nat → Prop} {line dst src it : Nat} (hd : L dst) (hs : L src) :
    good L (deepCopy line dst src it) := by
  simp [deepCopy, good, Kernel.touches, hd, hs]

@[simp] theorem after_deepCopy {L : Nat → Prop} {line dst src it : Nat} : after L (deepCopy line dst src it) = L := rfl

theorem good_newView {L : Nat → Prop} {line b : Nat} (h : ¬L b) : good L (newView line b) := by
  simp [newView, good, Kernel.touches, h, ins]

@[simp] theorem after_newView {L : Nat → Prop} {line b : Nat} : after L (newView line b) = ins b L := rfl

theorem good_flatMap {ι : Type} {L : Nat → Prop} {f : ι → List Cmd} {l : List ι}
    (h : ∀ i ∈ l, good L (f i) ∧ after L (f i) = L) : good L (l.flatMap f) ∧ after L (l.flatMap f) = L := by
  induction l with
  | nil => exact ⟨trivial, rfl⟩
  | cons i l ih =>
    obtain ⟨h1, h2⟩ := h i (by simp)
    obtain ⟨h3, h4⟩ := ih fun j hj => h j (List.mem_cons_of_mem _ hj)
    rw [List.flatMap_cons, good_append, after_append, h2]
    exact ⟨⟨h1, h3⟩, h4⟩

theorem Solver.solve_ok (t : Bool) (b : Nat) (S : Solver) {L : Nat → Prop} (hb : L b) (hm : ∀ c ∈ S.mats, L c)
    (ht : ∀ c ∈ S.temps, ¬L c) (hd : S.Distinct) : good L (S.solve t b) ∧ after L (S.solve t b) = L := by
  induction S with
  | direct line mats =>
    refine ⟨⟨fun c hc => ?_, trivial⟩, rfl⟩
    rcases List.mem_append.1 hc with hc | hc
    · exact hm c hc
    · exact List.mem_singleton.1 hc ▸ hb
  | skip => exact ⟨trivial, rfl⟩
  | blocks2 topLeft bottomRight topRight bottomLeft ih1 ih2 =>
    obtain ⟨g1, a1⟩ := ih1 (fun c hc => hm c (by simp [Solver.mats, hc])) (fun c hc => ht c (by simp [Solver.temps, hc])) hd.1
    obtain ⟨g2, a2⟩ := ih2 (fun c hc => hm c (by simp [Solver.mats, hc])) (fun c hc => ht c (by simp [Solver.temps, hc])) hd.2
    have h3 : ∀ line it, good L [.launch 0 ⟨line, topRight, [b], it⟩] := fun line it => ⟨fun c hc => by
      rcases List.mem_append.1 hc with hc | hc
      · exact hm c (by have : c ∈ topRight := hc
                       simp [Solver.mats, this])
      · exact List.mem_singleton.1 hc ▸ hb, trivial⟩
    have h4 : ∀ line it, good L [.launch 0 ⟨line, bottomLeft, [b], it⟩] := fun line it => ⟨fun c hc => by
      rcases List.mem_append.1 hc with hc | hc
      · exact hm c (by have : c ∈ bottomLeft := hc
                       simp [Solver.mats, this])
      · exact List.mem_singleton.1 hc ▸ hb, trivial⟩
    have a3 : ∀ k : Kernel, after L [.launch 0 k] = L := fun _ => rfl
    simp only [Solver.solve]
    split
    · simp only [good_append, after_append, a1, a2, a3, g1, g2, h3, h4, and_self]
    · simp only [good_append, after_append, a1, a2, a3, g1, g2, h3, h4, and_self]
  | blocks3 inner buffered buffer ih =>
    obtain ⟨g1, a1⟩ := ih hm (fun c hc => ht c (by simp [Solver.temps, hc])) hd
    have hn : ¬L buffer := ht buffer (by simp [Solver.temps])
    have hi : ins buffer L buffer := .inl rfl
    have hi' : ins buffer L b := .inr hb
    have af : after (ins buffer L) [.free buffer] = L := del_ins hn
    have gf : good (ins buffer L) [.free buffer] := ⟨hi, trivial⟩
    simp only [Solver.solve]
    cases buffered
    · simp only [good_append, after_append, after_deepCopy, Bool.false_eq_true, if_false, a1, g1, good_deepCopy hb hb,
        and_self]
    · simp only [good_append, after_append, after_deepCopy, after_newView, if_true, a1, g1, good_deepCopy hb hb,
        good_deepCopy hi hi', good_deepCopy hi' hi, good_newView hn, af, gf, and_self]
  | sparse mats bbuf x chunks =>
    have n1 : ¬L bbuf := ht bbuf (by simp [Solver.temps])
    have n2 : ¬L x := ht x (by simp [Solver.temps])
    have n3 : ¬ins bbuf L x := fun h => h.elim (fun e => hd e.symm) n2
    have hx : ins x (ins bbuf L) x := .inl rfl
    have hbb : ins x (ins bbuf L) bbuf := .inr (.inl rfl)
    have hB : ins x (ins bbuf L) b := .inr (.inr hb)
    have loop := good_flatMap (L := ins x (ins bbuf L)) (l := List.range chunks) (f := fun i =>
      deepCopy 255 bbuf b i ++ deepCopy 256 x b i ++ [.launch 0 ⟨260, bbuf :: mats, [x], i⟩] ++ deepCopy 277 b x i)
      (fun i _ => by
        have gk : good (ins x (ins bbuf L)) [.launch 0 ⟨260, bbuf :: mats, [x], i⟩] := ⟨fun c hc => by
          rcases List.mem_append.1 hc with hc | hc
          · rcases List.mem_cons.1 hc with rfl | hc
            · exact hbb
            · exact .inr (.inr (hm c hc))
          · exact List.mem_singleton.1 hc ▸ hx, trivial⟩
        have ak : after (ins x (ins bbuf L)) [.launch 0 ⟨260, bbuf :: mats, [x], i⟩] = ins x (ins bbuf L) := rfl
        simp only [good_append, after_append, after_deepCopy, ak, gk, good_deepCopy hbb hB, good_deepCopy hx hB,
          good_deepCopy hB hx, and_self])
    have af : after (ins x (ins bbuf L)) [.free x, .free bbuf] = L := by
      show del bbuf (del x (ins x (ins bbuf L))) = L
      rw [del_ins n3, del_ins n1]
    have gf : good (ins x (ins bbuf L)) [.free x, .free bbuf] := by
      refine ⟨hx, ?_, trivial⟩
      rw [del_ins n3]
      exact .inl rfl
    simp only [Solver.solve, good_append, after_append, after_newView, good_newView n1, good_newView n3, loop.1, loop.2,
      gf, af, and_self]

theorem on_append {i : Nat} {p q : List Cmd} : (∀ c ∈ p ++ q, c.On i) ↔ (∀ c ∈ p, c.On i) ∧ ∀ c ∈ q, c.On i := by
  simp [or_imp, forall_and]

theorem deepCopy_on {line dst src it : Nat} : ∀ c ∈ deepCopy line dst src it, c.On 0 := by
  simp [deepCopy, Cmd.On]

theorem newView_on {line b : Nat} : ∀ c ∈ newView line b, c.On 0 := by
  simp [newView, Cmd.On]

theorem Solver.solve_on (t : Bool) (b : Nat) (S : Solver) : ∀ c ∈ S.solve t b, c.On 0 := by
  induction S with
  | direct line mats => simp [Solver.solve, Cmd.On]
  | skip => simp [Solver.solve]
  | blocks2 topLeft bottomRight topRight bottomLeft ih1 ih2 =>
    have h : ∀ k : Kernel, ∀ c ∈ [Cmd.launch 0 k], c.On 0 := by simp [Cmd.On]
    simp only [Solver.solve]
    split <;> simp only [on_append] <;> exact ⟨⟨⟨by first | exact h _ | assumption, by first | exact h _ | assumption⟩,
      by first | exact h _ | assumption⟩, by first | exact h _ | assumption⟩
  | blocks3 inner buffered buffer ih =>
    have h : ∀ c ∈ [Cmd.free buffer], c.On 0 := by simp [Cmd.On]
    simp only [Solver.solve]
    cases buffered
    · simp only [on_append, Bool.false_eq_true, if_false]
      exact ⟨⟨⟨⟨deepCopy_on, deepCopy_on⟩, ih⟩, deepCopy_on⟩, deepCopy_on⟩
    · simp only [on_append, if_true]
      exact ⟨⟨⟨⟨⟨⟨⟨newView_on, deepCopy_on⟩, deepCopy_on⟩, h⟩, deepCopy_on⟩, ih⟩, deepCopy_on⟩,
        ⟨⟨newView_on, deepCopy_on⟩, deepCopy_on⟩, h⟩
  | sparse mats bbuf x chunks =>
    simp only [Solver.solve, on_append]
    refine ⟨⟨⟨newView_on, newView_on⟩, fun c hc => ?_⟩, by simp [Cmd.On]⟩
    obtain ⟨i, _, hc⟩ := List.mem_flatMap.1 hc
    exact (on_append.2 ⟨on_append.2 ⟨on_append.2 ⟨deepCopy_on, deepCopy_on⟩, by simp [Cmd.On]⟩,
      deepCopy_on⟩) c hc

theorem Inv.called {cfg : Config} {i : Nat} {s : State V} {m final : Mem V} (hs : Called i W s m)
    (hd : Disc cfg s.pending s.prog) (hf : sync W s.prog m = .ok final) : Inv cfg W s s.pending final :=
  ⟨fun _ h => h, hs.ordered, hd, Res.bind_eq_ok.2 ⟨m, hs.flushed, hf⟩⟩

/-- The changes of the program satisfy `S`. -/
def Within (S : Nat → Prop) (p : List Cmd) : Prop := ∀ c ∈ p, ∀ x ∈ c.changes, S x

theorem within_append {S : Nat → Prop} {p q : List Cmd} : Within S (p ++ q) ↔ Within S p ∧ Within S q := by
  simp [Within, or_imp, forall_and]

theorem Within.mono {S T : Nat → Prop} {p : List Cmd} (h : Within S p) (hst : ∀ x, S x → T x) : Within T p :=
  fun c hc x hx => hst x (h c hc x hx)

theorem within_deepCopy {S : Nat → Prop} {line dst src it : Nat} (h : S dst) : Within S (deepCopy line dst src it) := by
  simp [Within, deepCopy, Cmd.changes, h]

theorem within_newView {S : Nat → Prop} {line b : Nat} (h : S b) : Within S (newView line b) := by
  simp [Within, newView, Cmd.changes, h]

theorem Solver.solve_within (t : Bool) (b : Nat) (S : Solver) : Within (fun x => x = b ∨ x ∈ S.temps) (S.solve t b) := by
  induction S with
  | direct line mats => simp [Within, Solver.solve, Cmd.changes]
  | skip => simp [Within, Solver.solve]
  | blocks2 topLeft bottomRight topRight bottomLeft ih1 ih2 =>
    have h : ∀ k : Kernel, k.writes = [b] →
        Within (fun x => x = b ∨ x ∈ (Solver.blocks2 topLeft bottomRight topRight bottomLeft).temps) [Cmd.launch 0 k] := by
      intro k hk
      simp [Within, Cmd.changes, hk]
    have g1 : Within (fun x => x = b ∨ x ∈ (Solver.blocks2 topLeft bottomRight topRight bottomLeft).temps)
        (topLeft.solve t b) := ih1.mono fun x hx => hx.imp_right fun h => by simp [Solver.temps, h]
    have g2 : Within (fun x => x = b ∨ x ∈ (Solver.blocks2 topLeft bottomRight topRight bottomLeft).temps)
        (bottomRight.solve t b) := ih2.mono fun x hx => hx.imp_right fun h => by simp [Solver.temps, h]
    simp only [Solver.solve]
    split <;> simp only [within_append] <;> exact ⟨⟨⟨by first | exact h _ rfl | assumption,
      by first | exact h _ rfl | assumption⟩, by first | exact h _ rfl | assumption⟩,
      by first | exact h _ rfl | assumption⟩
  | blocks3 inner buffered buffer ih =>
    have hb : (fun x => x = b ∨ x ∈ (Solver.blocks3 inner buffered buffer).temps) b := .inl rfl
    have hB : (fun x => x = b ∨ x ∈ (Solver.blocks3 inner buffered buffer).temps) buffer :=
      .inr (by simp [Solver.temps])
    have g : Within (fun x => x = b ∨ x ∈ (Solver.blocks3 inner buffered buffer).temps) (inner.solve t b) :=
      ih.mono fun x hx => hx.imp_right fun h => by simp [Solver.temps, h]
    have hf : Within (fun x => x = b ∨ x ∈ (Solver.blocks3 inner buffered buffer).temps) [.free buffer] := by
      simp [Within, Cmd.changes, Solver.temps]
    simp only [Solver.solve]
    cases buffered
    · simp only [within_append, Bool.false_eq_true, if_false]
      exact ⟨⟨⟨⟨within_deepCopy hb, within_deepCopy hb⟩, g⟩, within_deepCopy hb⟩, within_deepCopy hb⟩
    · simp only [within_append, if_true]
      exact ⟨⟨⟨⟨⟨⟨⟨within_newView hB, within_deepCopy hB⟩, within_deepCopy hb⟩, hf⟩, within_deepCopy hb⟩, g⟩,
        within_deepCopy hb⟩, ⟨⟨within_newView hB, within_deepCopy hB⟩, within_deepCopy hb⟩, hf⟩
  | sparse mats bbuf x chunks =>
    have hb : (fun y => y = b ∨ y ∈ (Solver.sparse mats bbuf x chunks).temps) b := .inl rfl
    have h1 : (fun y => y = b ∨ y ∈ (Solver.sparse mats bbuf x chunks).temps) bbuf := .inr (by simp [Solver.temps])
    have h2 : (fun y => y = b ∨ y ∈ (Solver.sparse mats bbuf x chunks).temps) x := .inr (by simp [Solver.temps])
    simp only [Solver.solve, within_append]
    refine ⟨⟨⟨within_newView h1, within_newView h2⟩, fun c hc => ?_⟩, by simp [Within, Cmd.changes, Solver.temps]⟩
    obtain ⟨i, _, hc⟩ := List.mem_flatMap.1 hc
    exact (within_append.2 ⟨within_append.2 ⟨within_append.2 ⟨within_deepCopy h1, within_deepCopy h2⟩,
      by simp [Within, Cmd.changes, Solver.temps]⟩, within_deepCopy hb⟩) c hc

end DDC.Async
