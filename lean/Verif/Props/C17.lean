import Verif.Model.Ownership
import Verif.Lemmas.SpanKind

/-!
# C17 — ownership of allocations by chunks
-/

namespace DDC.Props

open Tup Spec World

variable {τ α D : Type} [DecidableEq τ]

/-- Replay of the calls of the allocator at one address: `none` when a rule is broken (allocation of a living
address, release of a dead one or with another size than the one allocated), otherwise the size of the living
allocation, if any. -/
def replay (a : Nat) : List HeapEvent → Option U64 → Option (Option U64)
  | [], live => some live
  | .alloc b n :: es, live =>
    if b = a then (if live = none then replay a es (some n) else none) else replay a es live
  | .free b n :: es, live =>
    if b = a then (if live = some n then replay a es none else none) else replay a es live

/-- Linear ownership. -/
structure Linear (w : World α D) : Prop where
  /-- the pointer of a chunk is a living allocation of the size of the chunk -/
  owns : ∀ i o a, w.objs i = some o → o.handle = some a → ∃ b, w.heap a = some b ∧ b.size = MDSpan.prod o.exts
  /-- an allocation has at most one owner -/
  exclusive : ∀ i j o o' a, w.objs i = some o → w.objs j = some o' → o.handle = some a → o'.handle = some a → i = j
  /-- an allocation has an owner -/
  owned : ∀ a b, w.heap a = some b → ∃ i o, w.objs i = some o ∧ o.handle = some a
  /-- each allocation is released at most once, with its size -/
  freed : ∀ a, replay a w.log none = some ((w.heap a).map Block.size)

/-- The sizes of the two views of a support agree. -/
def SizeAgrees (ops : SpanOps τ D) (V : D → Prop) : Prop :=
  ∀ d, V d → ∀ n x, ops.size d = .ok n → ops.extents d = .ok x → MDSpan.prod x.vals = n

/-- The domains constructed by the history satisfy `V`. -/
def OpValid (V : D → Prop) : ChunkOp α D → Prop
  | .construct _ _ d _ _ => V d
  | _ => True

theorem replay_append (a : Nat) (es fs : List HeapEvent) (live : Option U64) :
    replay a (es ++ fs) live = (replay a es live).bind (replay a fs) := by
  induction es generalizing live with
  | nil => rfl
  | cons e es ih =>
    cases e <;> simp only [List.cons_append, replay] <;> split <;> (try split) <;> simp [ih]

section generic
omit [DecidableEq τ]

private theorem upd_apply {β : Type} (f : Nat → Option β) (i : Nat) (v : Option β) (j : Nat) :
    upd f i v j = if j = i then v else f j := rfl

private theorem guard_of {p : Prop} [Decidable p] {u : Unit} (h : Res.guardIll (decide p) = .ok u) : p := by
  by_contra hn
  simp [Res.guardIll, hn] at h

private theorem release_ok {w : World α D} (h : Linear w) {i : Nat} {o : ChunkObj D} (hi : w.objs i = some o) :
    ∃ w', release w o = .ok w' ∧ w'.objs = w.objs ∧
      (∀ a, w'.heap a = if o.handle = some a then none else w.heap a) ∧
      (∀ a, replay a w'.log none = some ((w'.heap a).map Block.size)) := by
  cases ho : o.handle with
  | none => exact ⟨w, by simp [release, ho], rfl, by simp, h.freed⟩
  | some a =>
    obtain ⟨b, hb, hsz⟩ := h.owns i o a hi ho
    refine ⟨{ w with heap := upd w.heap a none, log := w.log ++ [.free a (MDSpan.prod o.exts)] },
      by simp [release, ho, deallocate, hb], rfl, ?_, ?_⟩
    · intro c; simp only [upd_apply, Option.some.injEq, eq_comm]
    · intro c
      have := h.freed c
      simp only [replay_append, this, upd_apply, Option.bind_some, replay]
      by_cases hc : a = c
      · subst hc; simp [hb, hsz]
      · simp [hc, Ne.symm hc]

private theorem destroy_linear {w w' : World α D} (h : Linear w) {i : Nat} (hr : destroy w i = .ok w') : Linear w' := by
  unfold destroy at hr
  cases hi : w.objs i with
  | none => simp [hi] at hr
  | some o =>
    obtain ⟨w1, r1, r2, r3, r4⟩ := release_ok h hi
    simp only [hi] at hr
    rw [r1] at hr
    obtain rfl := Res.ok.inj hr
    refine ⟨?_, ?_, ?_, r4⟩
    · intro k p a hk hp
      simp only [upd_apply, r2] at hk
      have := h.owns
      have := h.exclusive
      grind
    · intro k l p q a hk hl hp hq
      simp only [upd_apply, r2] at hk hl
      have := h.exclusive
      grind
    · intro a b hb
      simp only [upd_apply, r2]
      have := h.owned
      simp only at hb
      rw [r3] at hb
      grind

private theorem moveConstruct_linear {w w' : World α D} (h : Linear w) {i j : Nat} (hr : moveConstruct w i j = .ok w') :
    Linear w' := by
  unfold moveConstruct at hr
  obtain ⟨_, hg, hr⟩ := Res.bind_eq_ok.1 hr
  cases hj : w.objs j with
  | none => simp [hj] at hr
  | some o =>
    simp only [hj] at hr
    obtain rfl := Res.ok.inj hr
    have hg := guard_of hg
    have h1 := h.owns
    have h2 := h.exclusive
    have h3 := h.owned
    refine ⟨?_, ?_, ?_, h.freed⟩
    · intro k p a hk hp
      simp only [upd_apply] at hk
      grind
    · intro k l p q a hk hl hp hq
      simp only [upd_apply] at hk hl
      grind
    · intro a b hb
      obtain ⟨k, p, hk, hp⟩ := h3 a b hb
      simp only [upd_apply]
      by_cases hkj : k = j
      · refine ⟨i, o, ?_, ?_⟩ <;> grind
      · refine ⟨k, p, ?_, hp⟩
        grind

private theorem moveAssign_eq {w w' : World α D} (h : Linear w) {i j : Nat} (hr : moveAssign w i j = .ok w') :
    ∃ t o, w.objs i = some t ∧ w.objs j = some o ∧
      (∀ k, w'.objs k = if k = j then some { o with handle := none, label := "" } else if k = i then some o else w.objs k) ∧
      (∀ a, w'.heap a = if t.handle = some a then none else w.heap a) ∧
      (∀ a, replay a w'.log none = some ((w'.heap a).map Block.size)) := by
  unfold moveAssign at hr
  cases hi : w.objs i with
  | none => simp [hi] at hr
  | some t =>
    obtain ⟨w1, r1, r2, r3, r4⟩ := release_ok h hi
    simp only [hi] at hr
    rw [r1] at hr
    simp only [Res.ok_bind, r2] at hr
    cases hj : w.objs j with
    | none => simp [hj] at hr
    | some o =>
      simp only [hj] at hr
      refine ⟨t, o, rfl, rfl, ?_⟩
      have he : (upd w.objs i (some o)) j = some o := by
        simp only [upd_apply]; split
        · rfl
        · exact hj
      simp only [he] at hr
      obtain rfl := Res.ok.inj hr
      refine ⟨?_, r3, r4⟩
      intro k
      simp only [upd_apply]

private theorem moveAssign_linear {w w' : World α D} (h : Linear w) {i j : Nat} (hr : moveAssign w i j = .ok w') :
    Linear w' := by
  obtain ⟨t, o, hi, hj, e1, e2, e3⟩ := moveAssign_eq h hr
  have h1 := h.owns
  have h2 := h.exclusive
  have h3 := h.owned
  refine ⟨?_, ?_, ?_, e3⟩
  · intro k p a hk hp
    rw [e1] at hk
    rw [e2]
    grind
  · intro k l p q a hk hl hp hq
    rw [e1] at hk hl
    grind
  · intro a b hb
    rw [e2] at hb
    have hb' : w.heap a = some b ∧ t.handle ≠ some a := by grind
    obtain ⟨k, p, hk, hp⟩ := h3 a b hb'.1
    by_cases hkj : k = j
    · refine ⟨i, o, ?_, ?_⟩
      · rw [e1]; grind
      · grind
    · refine ⟨k, p, ?_, hp⟩
      rw [e1]; grind

end generic

/-- One step keeps the ownership linear. -/
theorem C17_step {ops : SpanOps τ D} {V : D → Prop} (hs : SizeAgrees ops V) (sz : U64) {w w' : World α D}
    (h : Linear w) {op : ChunkOp α D} (hv : OpValid V op) (hr : World.step ops sz w op = .ok w') : Linear w' := by
  cases op with
  | default i x d =>
    simp only [World.step, constructDefault] at hr
    obtain ⟨_, hg, hr⟩ := Res.bind_eq_ok.1 hr
    obtain rfl := Res.ok.inj hr
    have hg := guard_of hg
    have h1 := h.owns
    have h2 := h.exclusive
    have h3 := h.owned
    refine ⟨?_, ?_, ?_, h.freed⟩
    · intro k p a hk hp
      simp only [upd_apply] at hk
      grind
    · intro k l p q a hk hl hp hq
      simp only [upd_apply] at hk hl
      grind
    · intro a b hb
      obtain ⟨k, p, hk, hp⟩ := h3 a b hb
      refine ⟨k, p, ?_, hp⟩
      simp only [upd_apply]
      grind
  | construct i l d r init =>
    simp only [World.step, World.construct] at hr
    obtain ⟨_, hg, hr⟩ := Res.bind_eq_ok.1 hr
    obtain ⟨n, hn, hr⟩ := Res.bind_eq_ok.1 hr
    obtain ⟨x, hx, hr⟩ := Res.bind_eq_ok.1 hr
    have hg := guard_of hg
    have hsize := hs d hv n x hn hx
    have h1 := h.owns
    have h2 := h.exclusive
    have h3 := h.owned
    cases r with
    | throws =>
      obtain rfl := Res.ok.inj hr
      exact h
    | null =>
      obtain ⟨_, _, hr⟩ := Res.bind_eq_ok.1 hr
      obtain rfl := Res.ok.inj hr
      refine ⟨?_, ?_, ?_, h.freed⟩
      · intro k p a hk hp
        simp only [upd_apply] at hk
        grind
      · intro k l p q a hk hl hp hq
        simp only [upd_apply] at hk hl
        grind
      · intro a b hb
        obtain ⟨k, p, hk, hp⟩ := h3 a b hb
        refine ⟨k, p, ?_, hp⟩
        simp only [upd_apply]
        grind
    | ptr c =>
      obtain ⟨w1, hw1, hr⟩ := Res.bind_eq_ok.1 hr
      obtain rfl := Res.ok.inj hr
      simp only [allocate] at hw1
      obtain ⟨_, hc, hw1⟩ := Res.bind_eq_ok.1 hw1
      obtain ⟨_, _, hw1⟩ := Res.bind_eq_ok.1 hw1
      obtain rfl := Res.ok.inj hw1
      have hc := guard_of hc
      refine ⟨?_, ?_, ?_, ?_⟩
      · intro k p a hk hp
        simp only [upd_apply] at hk ⊢
        by_cases hac : a = c
        · subst hac
          rw [if_pos rfl]
          refine ⟨_, rfl, ?_⟩
          by_cases hki : k = i
          · rw [if_pos hki] at hk
            obtain rfl := Option.some.inj hk
            exact hsize.symm
          · grind
        · grind
      · intro k l p q a hk hl hp hq
        simp only [upd_apply] at hk hl
        grind
      · intro a b hb
        simp only [upd_apply] at hb ⊢
        by_cases hac : a = c
        · exact ⟨i, _, if_pos rfl, by rw [hac]⟩
        · rw [if_neg hac] at hb
          obtain ⟨k, p, hk, hp⟩ := h3 a b hb
          exact ⟨k, p, by grind, hp⟩
      · intro a
        have := h.freed a
        simp only [replay_append, this, upd_apply, Option.bind_some, replay]
        by_cases hac : c = a
        · subst hac
          have : w.heap c = none := by simpa using hc
          simp [this]
        · simp [hac, Ne.symm hac]
  | moveConstruct i j => exact moveConstruct_linear h hr
  | moveAssign i j => exact moveAssign_linear h hr
  | swap i j t =>
    simp only [World.step, World.swap] at hr
    obtain ⟨_, hsj, hr⟩ := Res.bind_eq_ok.1 hr
    have hsj := guard_of hsj
    obtain ⟨w1, a1, hr⟩ := Res.bind_eq_ok.1 hr
    obtain ⟨w2, a2, hr⟩ := Res.bind_eq_ok.1 hr
    obtain ⟨w3, a3, hr⟩ := Res.bind_eq_ok.1 hr
    exact destroy_linear (moveAssign_linear (moveAssign_linear (moveConstruct_linear h a1) a2) a3) hr
  | destroy i => exact destroy_linear h hr
  | store i p x =>
    simp only [World.step, store] at hr
    cases hi : w.objs i with
    | none => simp [hi] at hr
    | some o =>
      simp only [hi] at hr
      cases ho : o.handle with
      | none => simp [ho] at hr
      | some c =>
        simp only [ho] at hr
        cases hb : w.heap c with
        | none => simp [hb] at hr
        | some b =>
          simp only [hb] at hr
          obtain ⟨l, _, hr⟩ := Res.bind_eq_ok.1 hr
          obtain rfl := Res.ok.inj hr
          have h1 := h.owns
          have h3 := h.owned
          refine ⟨?_, h.exclusive, ?_, ?_⟩
          · intro k p a hk hp
            simp only [upd_apply]
            grind
          · intro a b' hb'
            simp only [upd_apply] at hb'
            grind
          · intro a
            rw [h.freed a]
            simp only [upd_apply]
            by_cases hac : a = c
            · subst hac; simp [hb]
            · simp [hac]

/-- Every history keeps the ownership linear. -/
theorem C17_linear {ops : SpanOps τ D} {V : D → Prop} (hs : SizeAgrees ops V) (sz : U64)
    (os : List (ChunkOp α D)) (hv : ∀ o ∈ os, OpValid V o) {w : World α D} (hr : run ops sz start os = .ok w) :
    Linear w := by
  have gen : ∀ (os : List (ChunkOp α D)) (w0 w : World α D), Linear w0 → (∀ o ∈ os, OpValid V o) →
      run ops sz w0 os = .ok w → Linear w := by
    intro os
    induction os with
    | nil =>
      intro w0 w h _ hr
      obtain rfl := Res.ok.inj hr
      exact h
    | cons o os ih =>
      intro w0 w h hv hr
      simp only [run] at hr
      obtain ⟨w1, h1, hr⟩ := Res.bind_eq_ok.1 hr
      exact ih w1 w (C17_step hs sz h (hv o List.mem_cons_self) h1) (fun o ho => hv o (List.mem_cons_of_mem _ ho)) hr
  refine gen os start w ⟨?_, ?_, ?_, ?_⟩ hv hr
  · intro i o a h; simp [start] at h
  · intro i j o o' a h; simp [start] at h
  · intro a b h; simp [start] at h
  · intro a; rfl

/-- When all chunks are destroyed nothing is left and every allocation has been released once with its size. -/
theorem C17_no_leak {ops : SpanOps τ D} {V : D → Prop} (hs : SizeAgrees ops V) (sz : U64)
    (os : List (ChunkOp α D)) (hv : ∀ o ∈ os, OpValid V o) {w : World α D} (hr : run ops sz start os = .ok w)
    (he : ∀ i, w.objs i = none) : (∀ a, w.heap a = none) ∧ ∀ a, replay a w.log none = some none := by
  have h := C17_linear hs sz os hv hr
  have h0 : ∀ a, w.heap a = none := by
    intro a
    cases hb : w.heap a with
    | none => rfl
    | some b =>
      obtain ⟨i, o, hi, _⟩ := h.owned a b hb
      rw [he i] at hi; cases hi
  exact ⟨h0, fun a => by rw [h.freed a, h0 a]; rfl⟩

/-- Operations a C++ program can express: the objects used exist, the objects created do not, and the allocator
keeps its contract. -/
def Expressible (ops : SpanOps τ D) (sz : U64) (w : World α D) : ChunkOp α D → Prop
  | .default i _ _ => w.objs i = none
  | .construct i _ d r init => w.objs i = none ∧ ∃ n x, ops.size d = .ok n ∧ ops.extents d = .ok x ∧
      (r = .null → n = 0) ∧ (∀ a, r = .ptr a → w.heap a = none ∧ init.length * sz.toNat ≤ (sz * n).toNat ∧
        (sz * n).toNat < (init.length + 1) * sz.toNat)
  | .moveConstruct i j => w.objs i = none ∧ (w.objs j).isSome
  | .moveAssign i j => (w.objs i).isSome ∧ (w.objs j).isSome
  | .swap i j t => (w.objs i).isSome ∧ (w.objs j).isSome ∧ w.objs t = none
  | .destroy i => (w.objs i).isSome
  | .store i p _ => ∃ o a b, w.objs i = some o ∧ o.handle = some a ∧ w.heap a = some b ∧ p < b.data.length

private theorem moveAssign_total {w : World α D} (h : Linear w) {i j : Nat} (hi : (w.objs i).isSome)
    (hj : (w.objs j).isSome) : ∃ w', moveAssign w i j = .ok w' := by
  obtain ⟨t, ht⟩ := Option.isSome_iff_exists.1 hi
  obtain ⟨o, ho⟩ := Option.isSome_iff_exists.1 hj
  obtain ⟨w1, r1, r2, _, _⟩ := release_ok h ht
  have he : (upd w.objs i (some o)) j = some o := by
    simp only [upd_apply]; split
    · rfl
    · exact ho
  simp only [moveAssign, ht, r1, Res.ok_bind, r2, ho, he]
  exact ⟨_, rfl⟩

private theorem moveConstruct_eq {w : World α D} {i j : Nat} {o : ChunkObj D} (hi : w.objs i = none)
    (hj : w.objs j = some o) : moveConstruct w i j =
      .ok ⟨w.heap, w.log, upd (upd w.objs i (some o)) j (some { o with handle := none, label := "" })⟩ := by
  have hij : i ≠ j := by rintro rfl; rw [hi] at hj; cases hj
  simp [moveConstruct, hi, hj, hij]

private theorem destroy_total {w : World α D} (h : Linear w) {i : Nat} (hi : (w.objs i).isSome) :
    ∃ w', destroy w i = .ok w' := by
  obtain ⟨t, ht⟩ := Option.isSome_iff_exists.1 hi
  obtain ⟨w1, r1, _⟩ := release_ok h ht
  simp only [destroy, ht, r1, Res.ok_bind]
  exact ⟨_, rfl⟩

/-- No operation is undefined: in particular nothing is released twice. -/
theorem C17_defined {ops : SpanOps τ D} (sz : U64) {w : World α D} (h : Linear w) (op : ChunkOp α D)
    (he : Expressible ops sz w op) : ∃ w', World.step ops sz w op = .ok w' := by
  cases op with
  | default i x d =>
    have he : w.objs i = none := he
    simp only [World.step, constructDefault, he]
    exact ⟨_, rfl⟩
  | construct i l d r init =>
    obtain ⟨h0, n, x, hn, hx, hnull, hptr⟩ := he
    simp only [World.step, World.construct, h0, hn, hx, Option.isNone_none, decide_true, Res.guardIll_true, Res.ok_bind]
    cases r with
    | throws => exact ⟨_, rfl⟩
    | null =>
      rw [hnull rfl]
      simp only [decide_true, Res.guardAbort_true, Res.ok_bind]
      exact ⟨_, rfl⟩
    | ptr a =>
      obtain ⟨p1, p2, p3⟩ := hptr a rfl
      simp only [allocate, p1, p2, p3, Option.isNone_none, and_self, decide_true, Res.guardIll_true, Res.ok_bind, Res.pure_eq]
      exact ⟨_, rfl⟩
  | moveConstruct i j =>
    obtain ⟨o, ho⟩ := Option.isSome_iff_exists.1 he.2
    exact ⟨_, moveConstruct_eq he.1 ho⟩
  | moveAssign i j => exact moveAssign_total h he.1 he.2
  | swap i j t =>
    obtain ⟨hi, hj, ht⟩ := he
    obtain ⟨o, ho⟩ := Option.isSome_iff_exists.1 hi
    have e1 := moveConstruct_eq ht ho
    have l1 := moveConstruct_linear h e1
    have hti : t ≠ i := by rintro rfl; rw [ht] at ho; cases ho
    have htj : t ≠ j := by rintro rfl; rw [ht] at hj; cases hj
    obtain ⟨w2, e2⟩ := moveAssign_total l1 (i := i) (j := j) (by simp [upd_apply]) (by
      simp only [upd_apply]; split
      · rfl
      · rw [if_neg (Ne.symm htj)]; exact hj)
    have l2 := moveAssign_linear l1 e2
    obtain ⟨t2, o2, _, _, q1, _, _⟩ := moveAssign_eq l1 e2
    obtain ⟨w3, e3⟩ := moveAssign_total l2 (i := j) (j := t) (by rw [q1]; simp) (by
      rw [q1, if_neg htj, if_neg hti]; simp [upd_apply, hti])
    have l3 := moveAssign_linear l2 e3
    obtain ⟨t3, o3, _, _, q3, _, _⟩ := moveAssign_eq l2 e3
    obtain ⟨w4, e4⟩ := destroy_total l3 (i := t) (by rw [q3]; simp)
    refine ⟨w4, ?_⟩
    simp only [World.step, World.swap, hj, decide_true, Res.guardIll_true, e1, e2, e3, e4, Res.ok_bind]
  | destroy i => exact destroy_total h he
  | store i p x =>
    obtain ⟨o, a, b, h1, h2, h3, h4⟩ := he
    simp only [World.step, store, h1, h2, h3, Span.write, h4, if_true, Res.ok_bind]
    exact ⟨_, rfl⟩

/-! ## Values -/

/-- A chunk as a value: its domain and its contents (labels are treated below), `none` for a chunk that was moved from or default
constructed. -/
structure Value (α D : Type) where
  dom : D
  content : Option (List α)

/-- What the operations mean for values: moving transfers the contents and leaves an empty chunk on the same
domain, swapping exchanges. -/
def valueStep (S : Nat → Option (Value α D)) : ChunkOp α D → (Nat → Option (Value α D))
  | .default i _ d => upd S i (some ⟨d, none⟩)
  | .construct i _ d r init => match r with
    | .throws => S
    | .null => upd S i (some ⟨d, some []⟩)
    | .ptr _ => upd S i (some ⟨d, some init⟩)
  | .moveConstruct i j => upd (upd S i (S j)) j ((S j).map (fun v => ⟨v.dom, none⟩))
  | .moveAssign i j => upd (upd S i (S j)) j ((S j).map (fun v => ⟨v.dom, none⟩))
  | .swap i j _ => upd (upd S i (S j)) j (S i)
  | .destroy i => upd S i none
  | .store i p x => upd S i ((S i).map (fun v => ⟨v.dom, v.content.map (fun l => l.set p x)⟩))

/-- Values of a sequence of operations. -/
def valueRun (S : Nat → Option (Value α D)) : List (ChunkOp α D) → (Nat → Option (Value α D))
  | [] => S
  | o :: os => valueRun (valueStep S o) os

/-- The object holds the value. -/
def HoldsValue (heap : Nat → Option (Block α)) (o : ChunkObj D) (v : Value α D) : Prop :=
  o.dom = v.dom ∧
  match v.content with
  | none => o.handle = none
  | some l => (∃ a b, o.handle = some a ∧ heap a = some b ∧ b.data = l) ∨ (o.handle = none ∧ l = [])

/-- The objects are the values. -/
structure Shows (w : World α D) (S : Nat → Option (Value α D)) : Prop where
  same : ∀ i, w.objs i = none ↔ S i = none
  holds : ∀ i o v, w.objs i = some o → S i = some v → HoldsValue w.heap o v

section generic
omit [DecidableEq τ]

private theorem HoldsValue.moved {heap : Nat → Option (Block α)} {o : ChunkObj D} {v : Value α D} (h : o.dom = v.dom) :
    HoldsValue heap { o with handle := none, label := "" } ⟨v.dom, none⟩ := ⟨h, rfl⟩

private theorem HoldsValue.heap {heap heap' : Nat → Option (Block α)} {o : ChunkObj D} {v : Value α D}
    (h : HoldsValue heap o v) (he : ∀ a, o.handle = some a → heap' a = heap a) : HoldsValue heap' o v := by
  refine ⟨h.1, ?_⟩
  have h2 := h.2
  cases hc : v.content with
  | none => rw [hc] at h2; exact h2
  | some l =>
    rw [hc] at h2
    rcases h2 with ⟨a, b, h3, h4, h5⟩ | h2
    · exact .inl ⟨a, b, h3, by rw [he a h3, h4], h5⟩
    · exact .inr h2

private theorem destroy_values {w w' : World α D} {S : Nat → Option (Value α D)} (h : Linear w) (hS : Shows w S)
    {i : Nat} (hr : destroy w i = .ok w') : Shows w' (upd S i none) := by
  unfold destroy at hr
  cases hi : w.objs i with
  | none => simp [hi] at hr
  | some o =>
    obtain ⟨w1, r1, r2, r3, r4⟩ := release_ok h hi
    simp only [hi, r1, Res.ok_bind] at hr
    obtain rfl := Res.ok.inj hr
    refine ⟨?_, ?_⟩
    · intro k
      simp only [upd_apply, r2]
      have := hS.same k
      grind
    · intro k p v hk hv
      simp only [upd_apply, r2] at hk hv
      by_cases hki : k = i
      · rw [if_pos hki] at hk; cases hk
      · rw [if_neg hki] at hk hv
        refine (hS.holds k p v hk hv).heap ?_
        intro a ha
        show w1.heap a = _
        rw [r3, if_neg]
        intro ho
        exact hki (h.exclusive k i p o a hk hi ha ho)

private theorem moveConstruct_values {w w' : World α D} {S : Nat → Option (Value α D)} (hS : Shows w S)
    {i j : Nat} (hr : moveConstruct w i j = .ok w') :
    Shows w' (upd (upd S i (S j)) j ((S j).map (fun v => ⟨v.dom, none⟩))) := by
  unfold moveConstruct at hr
  obtain ⟨_, hg, hr⟩ := Res.bind_eq_ok.1 hr
  have hg := guard_of hg
  cases hj : w.objs j with
  | none => simp [hj] at hr
  | some o =>
    simp only [hj] at hr
    obtain rfl := Res.ok.inj hr
    refine ⟨?_, ?_⟩
    · intro k
      simp only [upd_apply]
      have := hS.same k
      have := hS.same j
      grind [Option.map_eq_none_iff]
    · intro k p v hk hv
      simp only [upd_apply] at hk hv
      by_cases hkj : k = j
      · rw [if_pos hkj] at hk hv
        obtain rfl := Option.some.inj hk
        obtain ⟨v0, hv0, rfl⟩ := Option.map_eq_some_iff.1 hv
        exact HoldsValue.moved (hS.holds j o v0 hj hv0).1
      · rw [if_neg hkj] at hk hv
        by_cases hki : k = i
        · rw [if_pos hki] at hk hv
          obtain rfl := Option.some.inj hk
          exact hS.holds j o v hj hv
        · rw [if_neg hki] at hk hv
          exact hS.holds k p v hk hv

private theorem moveAssign_values {w w' : World α D} {S : Nat → Option (Value α D)} (h : Linear w) (hS : Shows w S)
    {i j : Nat} (hr : moveAssign w i j = .ok w') :
    Shows w' (upd (upd S i (S j)) j ((S j).map (fun v => ⟨v.dom, none⟩))) := by
  obtain ⟨t, o, hi, hj, e1, e2, _⟩ := moveAssign_eq h hr
  refine ⟨?_, ?_⟩
  · intro k
    simp only [upd_apply, e1]
    have := hS.same k
    have := hS.same j
    grind [Option.map_eq_none_iff]
  · intro k p v hk hv
    rw [e1] at hk
    simp only [upd_apply] at hv
    by_cases hkj : k = j
    · rw [if_pos hkj] at hk hv
      obtain rfl := Option.some.inj hk
      obtain ⟨v0, hv0, rfl⟩ := Option.map_eq_some_iff.1 hv
      exact HoldsValue.moved (hS.holds j o v0 hj hv0).1
    · rw [if_neg hkj] at hk hv
      by_cases hki : k = i
      · rw [if_pos hki] at hk hv
        obtain rfl := Option.some.inj hk
        refine (hS.holds j o v hj hv).heap ?_
        intro a ha
        rw [e2, if_neg]
        intro ht
        have := h.exclusive j i o t a hj hi ha ht
        exact hkj (by rw [hki, this])
      · rw [if_neg hki] at hk hv
        refine (hS.holds k p v hk hv).heap ?_
        intro a ha
        rw [e2, if_neg]
        intro ht
        exact hki (h.exclusive k i p t a hk hi ha ht)

end generic

/-- One step acts on the values as the specification says. -/
theorem C17_values_step {ops : SpanOps τ D} (sz : U64) {w w' : World α D} {S : Nat → Option (Value α D)}
    (h : Linear w) (hS : Shows w S) {op : ChunkOp α D} (hr : World.step ops sz w op = .ok w') :
    Shows w' (valueStep S op) := by
  cases op with
  | default i x d =>
    simp only [World.step, constructDefault] at hr
    obtain ⟨_, hg, hr⟩ := Res.bind_eq_ok.1 hr
    obtain rfl := Res.ok.inj hr
    refine ⟨?_, ?_⟩
    · intro k
      simp only [upd_apply, valueStep]
      have := hS.same k
      grind
    · intro k p v hk hv
      simp only [upd_apply, valueStep] at hk hv
      by_cases hki : k = i
      · rw [if_pos hki] at hk hv
        obtain rfl := Option.some.inj hk
        obtain rfl := Option.some.inj hv
        exact ⟨rfl, rfl⟩
      · rw [if_neg hki] at hk hv
        exact hS.holds k p v hk hv
  | construct i l d r init =>
    simp only [World.step, World.construct] at hr
    obtain ⟨_, hg, hr⟩ := Res.bind_eq_ok.1 hr
    obtain ⟨n, hn, hr⟩ := Res.bind_eq_ok.1 hr
    obtain ⟨x, hx, hr⟩ := Res.bind_eq_ok.1 hr
    cases r with
    | throws =>
      obtain rfl := Res.ok.inj hr
      exact hS
    | null =>
      obtain ⟨_, _, hr⟩ := Res.bind_eq_ok.1 hr
      obtain rfl := Res.ok.inj hr
      refine ⟨?_, ?_⟩
      · intro k
        simp only [upd_apply, valueStep]
        have := hS.same k
        grind
      · intro k p v hk hv
        simp only [upd_apply, valueStep] at hk hv
        by_cases hki : k = i
        · rw [if_pos hki] at hk hv
          obtain rfl := Option.some.inj hk
          obtain rfl := Option.some.inj hv
          exact ⟨rfl, .inr ⟨rfl, rfl⟩⟩
        · rw [if_neg hki] at hk hv
          exact hS.holds k p v hk hv
    | ptr c =>
      obtain ⟨w1, hw1, hr⟩ := Res.bind_eq_ok.1 hr
      obtain rfl := Res.ok.inj hr
      simp only [allocate] at hw1
      obtain ⟨_, hc, hw1⟩ := Res.bind_eq_ok.1 hw1
      obtain ⟨_, _, hw1⟩ := Res.bind_eq_ok.1 hw1
      obtain rfl := Res.ok.inj hw1
      have hc := guard_of hc
      refine ⟨?_, ?_⟩
      · intro k
        simp only [upd_apply, valueStep]
        have := hS.same k
        grind
      · intro k p v hk hv
        simp only [upd_apply, valueStep] at hk hv
        by_cases hki : k = i
        · rw [if_pos hki] at hk hv
          obtain rfl := Option.some.inj hk
          obtain rfl := Option.some.inj hv
          exact ⟨rfl, .inl ⟨c, ⟨n, sz * n, init⟩, rfl, by simp [upd_apply], rfl⟩⟩
        · rw [if_neg hki] at hk hv
          refine (hS.holds k p v hk hv).heap ?_
          intro a ha
          obtain ⟨b, hb, _⟩ := h.owns k p a hk ha
          simp only [upd_apply]
          rw [if_neg]
          rintro rfl
          simp [hb] at hc
  | moveConstruct i j => exact moveConstruct_values hS hr
  | moveAssign i j => exact moveAssign_values h hS hr
  | swap i j t =>
    simp only [World.step, World.swap] at hr
    obtain ⟨_, hsj, hr⟩ := Res.bind_eq_ok.1 hr
    have hsj := guard_of hsj
    obtain ⟨w1, a1, hr⟩ := Res.bind_eq_ok.1 hr
    obtain ⟨w2, a2, hr⟩ := Res.bind_eq_ok.1 hr
    obtain ⟨w3, a3, hr⟩ := Res.bind_eq_ok.1 hr
    have hfr : w.objs t = none ∧ t ≠ i := by
      unfold moveConstruct at a1
      obtain ⟨_, hg, _⟩ := Res.bind_eq_ok.1 a1
      have := guard_of hg
      exact ⟨by simpa using this.1, this.2⟩
    have l1 := moveConstruct_linear h a1
    have l2 := moveAssign_linear l1 a2
    have l3 := moveAssign_linear l2 a3
    have s1 := moveConstruct_values hS a1
    have s2 := moveAssign_values l1 s1 a2
    have s3 := moveAssign_values l2 s2 a3
    have s4 := destroy_values l3 s3 hr
    have hSt := (hS.same t).1 hfr.1
    have htj : t ≠ j := by
      rintro rfl
      rw [hfr.1] at hsj; cases hsj
    have hti := hfr.2
    have heq : upd (upd (upd (upd (upd (upd (upd S t (S i)) i ((S i).map (fun v => (⟨v.dom, none⟩ : Value α D)))) i
        (upd (upd S t (S i)) i ((S i).map (fun v => ⟨v.dom, none⟩)) j)) j
        ((upd (upd S t (S i)) i ((S i).map (fun v => ⟨v.dom, none⟩)) j).map (fun v => ⟨v.dom, none⟩))) j (S i)) t
        ((S i).map (fun v => ⟨v.dom, none⟩))) t none = upd (upd S i (S j)) j (S i) := by
      funext k
      simp only [upd_apply]
      grind
    have hval : ∀ X : Nat → Option (Value α D), X t = S i → upd (upd (upd X j (X t)) t ((X t).map (fun v => ⟨v.dom, none⟩))) t none
        = upd (upd (upd X j (S i)) t ((S i).map (fun v => ⟨v.dom, none⟩))) t none := by
      intro X hX; rw [hX]
    rw [hval _ (by simp [upd_apply, hti, htj]), heq] at s4
    exact s4
  | destroy i => exact destroy_values h hS hr
  | store i p x =>
    simp only [World.step, store] at hr
    cases hi : w.objs i with
    | none => simp [hi] at hr
    | some o =>
      simp only [hi] at hr
      cases ho : o.handle with
      | none => simp [ho] at hr
      | some c =>
        simp only [ho] at hr
        cases hb : w.heap c with
        | none => simp [hb] at hr
        | some b =>
          simp only [hb] at hr
          obtain ⟨l, hl, hr⟩ := Res.bind_eq_ok.1 hr
          obtain rfl := Res.ok.inj hr
          have hl : l = b.data.set p x := by
            unfold Span.write at hl
            split at hl
            · exact (Res.ok.inj hl).symm
            · cases hl
          refine ⟨?_, ?_⟩
          · intro k
            simp only [upd_apply, valueStep]
            have := hS.same k
            grind [Option.map_eq_none_iff]
          · intro k q v hk hv
            simp only [upd_apply, valueStep] at hv
            simp only at hk
            by_cases hki : k = i
            · rw [if_pos hki] at hv
              subst hki
              rw [hi] at hk
              obtain rfl := Option.some.inj hk
              obtain ⟨v0, hv0, rfl⟩ := Option.map_eq_some_iff.1 hv
              have h0 := hS.holds k o v0 hi hv0
              refine ⟨h0.1, ?_⟩
              have h2 := h0.2
              cases hcc : v0.content with
              | none => rw [hcc] at h2; rw [h2] at ho; cases ho
              | some l0 =>
                rw [hcc] at h2
                rcases h2 with ⟨a, b', h3, h4, h5⟩ | h2
                · rw [ho] at h3
                  obtain rfl := Option.some.inj h3
                  rw [hb] at h4
                  obtain rfl := Option.some.inj h4
                  exact .inl ⟨c, { b with data := l }, ho, by simp [upd_apply], by rw [← h5]; exact hl⟩
                · rw [h2.1] at ho; cases ho
            · rw [if_neg hki] at hv
              refine (hS.holds k q v hk hv).heap ?_
              intro a ha
              simp only [upd_apply]
              rw [if_neg]
              rintro rfl
              exact hki (h.exclusive k i q o a hk hi ha ho)

/-- Every history acts on the values as the specification says: moves transfer the contents unchanged. -/
theorem C17_values {ops : SpanOps τ D} {V : D → Prop} (hs : SizeAgrees ops V) (sz : U64)
    (os : List (ChunkOp α D)) (hv : ∀ o ∈ os, OpValid V o) {w : World α D} (hr : run ops sz start os = .ok w) :
    Shows w (valueRun (fun _ => none) os) := by
  have gen : ∀ (os : List (ChunkOp α D)) (w0 w : World α D) (S : Nat → Option (Value α D)), Linear w0 → Shows w0 S →
      (∀ o ∈ os, OpValid V o) → run ops sz w0 os = .ok w → Shows w (valueRun S os) := by
    intro os
    induction os with
    | nil =>
      intro w0 w S _ h _ hr
      obtain rfl := Res.ok.inj hr
      exact h
    | cons o os ih =>
      intro w0 w S hl h hv hr
      simp only [run] at hr
      obtain ⟨w1, h1, hr⟩ := Res.bind_eq_ok.1 hr
      exact ih w1 w _ (C17_step hs sz hl (hv o List.mem_cons_self) h1) (C17_values_step sz hl h h1)
        (fun o ho => hv o (List.mem_cons_of_mem _ ho)) hr
  refine gen os start w _ ⟨?_, ?_, ?_, ?_⟩ ⟨?_, ?_⟩ hv hr
  · intro i o a h; simp [start] at h
  · intro i j o o' a h; simp [start] at h
  · intro a b h; simp [start] at h
  · intro a; rfl
  · intro i; simp [start]
  · intro i o v h; simp [start] at h

/-! ## Labels -/

/-- The label a chunk must have; `none` for no claim: no such chunk, or moved from. -/
def labelStep (L : Nat → Option String) : ChunkOp α D → (Nat → Option String)
  | .default i _ _ => upd L i (some "")
  | .construct i l _ r _ => match r with
    | .throws => L
    | _ => upd L i (some l)
  | .moveConstruct i j => upd (upd L i (L j)) j none
  | .moveAssign i j => upd (upd L i (L j)) j none
  | .swap i j _ => upd (upd L i (L j)) j (L i)
  | .destroy i => upd L i none
  | .store _ _ _ => L

private theorem labels_step {ops : SpanOps τ D} (sz : U64) {w w' : World α D} {L : Nat → Option String}
    (h : Linear w) (hL : ∀ i l, L i = some l → ∃ o, w.objs i = some o ∧ o.label = l) {op : ChunkOp α D}
    (hr : World.step ops sz w op = .ok w') :
    ∀ i l, labelStep L op i = some l → ∃ o, w'.objs i = some o ∧ o.label = l := by
  have hmc : ∀ {w w' : World α D} {L : Nat → Option String} {i j : Nat},
      (∀ i l, L i = some l → ∃ o, w.objs i = some o ∧ o.label = l) → moveConstruct w i j = .ok w' →
      ∀ k l, upd (upd L i (L j)) j none k = some l → ∃ o, w'.objs k = some o ∧ o.label = l := by
    intro w w' L i j hL hr k l hk
    unfold moveConstruct at hr
    obtain ⟨_, _, hr⟩ := Res.bind_eq_ok.1 hr
    cases hj : w.objs j with
    | none => simp [hj] at hr
    | some o =>
      simp only [hj] at hr
      obtain rfl := Res.ok.inj hr
      simp only [upd_apply] at hk ⊢
      by_cases h1 : k = j
      · rw [if_pos h1] at hk; cases hk
      · rw [if_neg h1] at hk ⊢
        by_cases h2 : k = i
        · rw [if_pos h2] at hk ⊢
          obtain ⟨o', ho', hl⟩ := hL j l hk
          rw [hj] at ho'
          exact ⟨o, rfl, by rw [Option.some.inj ho']; exact hl⟩
        · rw [if_neg h2] at hk ⊢
          exact hL k l hk
  have hma : ∀ {w w' : World α D} {L : Nat → Option String} {i j : Nat}, Linear w →
      (∀ i l, L i = some l → ∃ o, w.objs i = some o ∧ o.label = l) → moveAssign w i j = .ok w' →
      ∀ k l, upd (upd L i (L j)) j none k = some l → ∃ o, w'.objs k = some o ∧ o.label = l := by
    intro w w' L i j h hL hr k l hk
    obtain ⟨t, o, _, hj, e1, _⟩ := moveAssign_eq h hr
    rw [e1]
    simp only [upd_apply] at hk
    by_cases h1 : k = j
    · rw [if_pos h1] at hk; cases hk
    · rw [if_neg h1] at hk ⊢
      by_cases h2 : k = i
      · rw [if_pos h2] at hk ⊢
        obtain ⟨o', ho', hl⟩ := hL j l hk
        rw [hj] at ho'
        exact ⟨o, rfl, by rw [Option.some.inj ho']; exact hl⟩
      · rw [if_neg h2] at hk ⊢
        exact hL k l hk
  have hde : ∀ {w w' : World α D} {L : Nat → Option String} {i : Nat}, Linear w →
      (∀ i l, L i = some l → ∃ o, w.objs i = some o ∧ o.label = l) → destroy w i = .ok w' →
      ∀ k l, upd L i none k = some l → ∃ o, w'.objs k = some o ∧ o.label = l := by
    intro w w' L i h hL hr k l hk
    unfold destroy at hr
    cases hi : w.objs i with
    | none => simp [hi] at hr
    | some o =>
      obtain ⟨w1, r1, r2, _⟩ := release_ok h hi
      simp only [hi, r1, Res.ok_bind] at hr
      obtain rfl := Res.ok.inj hr
      simp only [upd_apply] at hk ⊢
      by_cases h1 : k = i
      · rw [if_pos h1] at hk; cases hk
      · rw [if_neg h1] at hk ⊢
        rw [r2]
        exact hL k l hk
  have hset : ∀ {w : World α D} {i : Nat} {o : ChunkObj D} (k : Nat) (l : String),
      upd L i (some o.label) k = some l →
      (∀ i l, L i = some l → ∃ o, w.objs i = some o ∧ o.label = l) →
      ∃ o', upd w.objs i (some o) k = some o' ∧ o'.label = l := by
    intro w i o k l hk hL
    simp only [upd_apply] at hk ⊢
    by_cases h1 : k = i
    · rw [if_pos h1] at hk ⊢
      exact ⟨o, rfl, Option.some.inj hk⟩
    · rw [if_neg h1] at hk ⊢
      exact hL k l hk
  cases op with
  | default i x d =>
    simp only [World.step, constructDefault] at hr
    obtain ⟨_, _, hr⟩ := Res.bind_eq_ok.1 hr
    obtain rfl := Res.ok.inj hr
    intro k l hk
    exact hset k l hk hL
  | construct i lb d r init =>
    simp only [World.step, World.construct] at hr
    obtain ⟨_, _, hr⟩ := Res.bind_eq_ok.1 hr
    obtain ⟨n, _, hr⟩ := Res.bind_eq_ok.1 hr
    obtain ⟨x, _, hr⟩ := Res.bind_eq_ok.1 hr
    cases r with
    | throws =>
      obtain rfl := Res.ok.inj hr
      exact hL
    | null =>
      obtain ⟨_, _, hr⟩ := Res.bind_eq_ok.1 hr
      obtain rfl := Res.ok.inj hr
      intro k l hk
      exact hset k l hk hL
    | ptr a =>
      obtain ⟨w1, hw1, hr⟩ := Res.bind_eq_ok.1 hr
      obtain rfl := Res.ok.inj hr
      have ho : w1.objs = w.objs := by
        simp only [allocate] at hw1
        obtain ⟨_, _, hw1⟩ := Res.bind_eq_ok.1 hw1
        obtain ⟨_, _, hw1⟩ := Res.bind_eq_ok.1 hw1
        obtain rfl := Res.ok.inj hw1
        rfl
      intro k l hk
      exact hset k l hk (by rw [ho]; exact hL)
  | moveConstruct i j => exact hmc hL hr
  | moveAssign i j => exact hma h hL hr
  | swap i j t =>
    simp only [World.step, World.swap] at hr
    obtain ⟨_, hsj, hr⟩ := Res.bind_eq_ok.1 hr
    have hsj := guard_of hsj
    obtain ⟨w1, a1, hr⟩ := Res.bind_eq_ok.1 hr
    obtain ⟨w2, a2, hr⟩ := Res.bind_eq_ok.1 hr
    obtain ⟨w3, a3, hr⟩ := Res.bind_eq_ok.1 hr
    have hfr : w.objs t = none ∧ t ≠ i := by
      unfold moveConstruct at a1
      obtain ⟨_, hg, _⟩ := Res.bind_eq_ok.1 a1
      have := guard_of hg
      exact ⟨by simpa using this.1, this.2⟩
    have htj : t ≠ j := by
      rintro rfl
      rw [hfr.1] at hsj; cases hsj
    have hLt : L t = none := by
      cases hc : L t with
      | none => rfl
      | some l =>
        obtain ⟨o, ho, _⟩ := hL t l hc
        rw [hfr.1] at ho; cases ho
    have l1 := moveConstruct_linear h a1
    have l2 := moveAssign_linear l1 a2
    have l3 := moveAssign_linear l2 a3
    have s4 := hde l3 (hma l2 (hma l1 (hmc hL a1) a2) a3) hr
    intro k l hk
    refine s4 k l ?_
    rw [← hk]
    simp only [labelStep, upd_apply]
    have := hfr.2
    grind
  | destroy i => exact hde h hL hr
  | store i p x =>
    have ho : w'.objs = w.objs := by
      simp only [World.step, store] at hr
      cases hi : w.objs i with
      | none => simp [hi] at hr
      | some o =>
        simp only [hi] at hr
        cases ho : o.handle with
        | none => simp [ho] at hr
        | some c =>
          simp only [ho] at hr
          cases hb : w.heap c with
          | none => simp [hb] at hr
          | some b =>
            simp only [hb] at hr
            obtain ⟨l, _, hr⟩ := Res.bind_eq_ok.1 hr
            obtain rfl := Res.ok.inj hr
            rfl
    rw [ho]
    exact hL

/-- Every history acts on the labels as the specification says: a chunk keeps the label given at its
construction, moves and swaps take it along. -/
theorem C17_labels {ops : SpanOps τ D} {V : D → Prop} (hs : SizeAgrees ops V) (sz : U64)
    (os : List (ChunkOp α D)) (hv : ∀ o ∈ os, OpValid V o) {w : World α D} (hr : run ops sz start os = .ok w) :
    ∀ i l, os.foldl labelStep (fun _ => none) i = some l → ∃ o, w.objs i = some o ∧ o.label = l := by
  have gen : ∀ (os : List (ChunkOp α D)) (w0 w : World α D) (L : Nat → Option String), Linear w0 →
      (∀ i l, L i = some l → ∃ o, w0.objs i = some o ∧ o.label = l) →
      (∀ o ∈ os, OpValid V o) → run ops sz w0 os = .ok w →
      ∀ i l, os.foldl labelStep L i = some l → ∃ o, w.objs i = some o ∧ o.label = l := by
    intro os
    induction os with
    | nil =>
      intro w0 w L _ h _ hr
      obtain rfl := Res.ok.inj hr
      exact h
    | cons o os ih =>
      intro w0 w L hl h hv hr
      simp only [run] at hr
      obtain ⟨w1, h1, hr⟩ := Res.bind_eq_ok.1 hr
      exact ih w1 w _ (C17_step hs sz hl (hv o List.mem_cons_self) h1) (labels_step sz hl h h1)
        (fun o ho => hv o (List.mem_cons_of_mem _ ho)) hr
  refine gen os start w _ ⟨?_, ?_, ?_, ?_⟩ ?_ hv hr
  · intro i o a h; simp [start] at h
  · intro i j o o' a h; simp [start] at h
  · intro a b h; simp [start] at h
  · intro a; rfl
  · intro i l h; simp at h

/-- The supports of DDC satisfy the hypothesis on sizes. -/
private theorem sizeAgrees_of {ops : SpanOps τ D} {axesOf : D → List (τ × List U64)} {V : D → Prop}
    (K : SpanKind ops axesOf V) : SizeAgrees ops V := by
  intro d hd n x hn hx
  obtain ⟨n', h1, h2⟩ := K.size d hd
  rw [hn] at h1
  obtain rfl := Res.ok.inj h1
  rw [K.extents d hd] at hx
  obtain rfl := Res.ok.inj hx
  apply BitVec.eq_of_toNat_eq
  rw [MDSpan.toNat_prod, h2]
  congr 2
  rw [vals, List.map_map, List.map_map]
  refine List.map_congr_left ?_
  intro a ha
  have := K.small d hd a ha
  simp only [Function.comp, BitVec.toNat_ofNat]
  omega

/-- Contiguous domains. -/
theorem C17_sizes : SizeAgrees (Dom.spanOps (τ := τ)) Valid := sizeAgrees_of spanKind_dom
/-- Strided domains. -/
theorem C17_sizes_strided : SizeAgrees (SDom.spanOps (τ := τ)) SSafe := sizeAgrees_of spanKind_strided
/-- Sparse domains. -/
theorem C17_sizes_sparse : SizeAgrees (SpDom.spanOps (τ := τ)) SpValid := sizeAgrees_of spanKind_sparse

/-- The memory obtained has room for the elements when their total size is representable. -/
theorem C17_room {ops : SpanOps τ D} (sz : U64) {w w' : World α D} {i : Nat} {l : String} {d : D} {a : Nat} {init : List α}
    (hr : World.step ops sz w (.construct i l d (.ptr a) init) = .ok w') {n : U64} (hn : ops.size d = .ok n)
    (hsz : 0 < sz.toNat) (hfit : sz.toNat * n.toNat < 2 ^ 64) : init.length = n.toNat := by
  simp only [World.step, World.construct] at hr
  obtain ⟨_, hg, hr⟩ := Res.bind_eq_ok.1 hr
  obtain ⟨n', hn', hr⟩ := Res.bind_eq_ok.1 hr
  obtain ⟨x, hx, hr⟩ := Res.bind_eq_ok.1 hr
  rw [hn] at hn'
  obtain rfl := Res.ok.inj hn'
  obtain ⟨w1, hw1, hr⟩ := Res.bind_eq_ok.1 hr
  simp only [allocate] at hw1
  obtain ⟨_, _, hw1⟩ := Res.bind_eq_ok.1 hw1
  obtain ⟨_, hb, hw1⟩ := Res.bind_eq_ok.1 hw1
  have hb := guard_of hb
  rw [BitVec.toNat_mul, Nat.mod_eq_of_lt hfit] at hb
  have h1 : init.length * sz.toNat ≤ n.toNat * sz.toNat := by rw [Nat.mul_comm n.toNat]; exact hb.1
  have h2 : n.toNat * sz.toNat < (init.length + 1) * sz.toNat := by rw [Nat.mul_comm n.toNat]; exact hb.2
  have h3 := Nat.le_of_mul_le_mul_right h1 hsz
  have h4 := Nat.lt_of_mul_lt_mul_right h2
  omega

/-- Disagreement with the statement: the number of bytes wraps, an allocation of `2^61 + 1` elements of 8 bytes has
room for one. -/
theorem C17_bytes_wrap : ∃ w' : World Nat (Dom Char),
    World.step Dom.spanOps 8 start (.construct 0 "" [('x', (0, 0x2000000000000001))] (.ptr 0) [7]) = .ok w' ∧
    (w'.objs 0).map (fun o => MDSpan.prod o.exts) = some 0x2000000000000001 ∧
    (w'.heap 0).map (fun b => b.data.length) = some 1 := ⟨_, rfl, rfl, rfl⟩

/-- Moving a chunk to itself: nothing is released twice, but the contents are lost. -/
theorem C17_self_move {w w' : World α D} (h : Linear w) {i : Nat} (hr : moveAssign w i i = .ok w') :
    Linear w' ∧ ∃ o, w'.objs i = some o ∧ o.handle = none ∧ ∀ t a, w.objs i = some t → t.handle = some a → w'.heap a = none := by
  obtain ⟨t, o, h1, h2, h3, h4, _⟩ := moveAssign_eq h hr
  refine ⟨moveAssign_linear h hr, _, by rw [h3, if_pos rfl], rfl, ?_⟩
  intro t' a ht' ha
  rw [h1] at ht'
  obtain rfl := Option.some.inj ht'
  rw [h4, if_pos ha]

/-! Non-vacuity: two chunks are built, written, swapped, one is moved, all are destroyed. -/
section examples

private def history : List (ChunkOp Nat (Dom Char)) :=
  [.construct 0 "a" [('x', (3, 5))] (.ptr 100) [1, 2], .construct 1 "b" [('x', (0, 3))] (.ptr 200) [7, 8, 9],
   .store 0 1 5, .swap 0 1 9, .moveConstruct 2 1, .moveAssign 0 2, .moveAssign 2 2]

example : ∀ o ∈ history, OpValid Valid o := by
  intro o ho
  simp only [history, List.mem_cons, List.not_mem_nil, or_false] at ho
  rcases ho with rfl | rfl | rfl | rfl | rfl | rfl | rfl <;> simp only [OpValid]
  all_goals
    refine ⟨by decide, ?_⟩
    intro q hq
    simp only [tags, List.map_cons, List.map_nil, List.mem_cons, List.not_mem_nil, or_false] at hq
    subst hq; decide
example : ∃ w, run Dom.spanOps 8 start history = .ok w ∧ (w.objs 0).map ChunkObj.handle = some (some 100) ∧
    (w.heap 100).map Block.data = some [1, 5] ∧ w.heap 200 = none := ⟨_, rfl, rfl, rfl, rfl⟩
example : ∃ w, run Dom.spanOps 8 start (history ++ [.destroy 0, .destroy 1, .destroy 2]) = .ok w ∧
    w.log = [.alloc 100 2, .alloc 200 3, .free 200 3, .free 100 2] := ⟨_, rfl, rfl⟩

end examples

end DDC.Props
