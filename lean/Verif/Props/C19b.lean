import Verif.Props.C19
import Verif.Model.Interleave
import Mathlib.Logic.Relation

/-!
# C19, continued: iterations that run at the same time

The accesses of the iterations are interleaved in any way (`Model/Interleave.lean`).  If every iteration writes
only cells of its own and reads only these and cells that nobody writes, then no two iterations race
(`C19_race_free`), every execution ends (`C19_interleaving_ends`), and it ends in the memory of the sequential host
loop (`C19_interleaving`).
-/

set_option linter.unusedSectionVars false

namespace DDC.Props

open Tup Spec

variable {τ : Type} [DecidableEq τ] {κ V : Type} [DecidableEq κ]

/-- The program of the iteration `e` writes only the cells of `e` and reads only these and cells that nobody owns. -/
def Disciplined {ε : Type} (owner : κ → Option ε) (e : ε) : Prog κ V → Prop
  | .done => True
  | .read c k => (owner c = none ∨ owner c = some e) ∧ ∀ v, Disciplined owner e (k v)
  | .write c _ k => owner c = some e ∧ Disciplined owner e k

/-- Zero or more accesses. -/
def Interleaving (ts : List (Prog κ V)) (mem : κ → V) (ts' : List (Prog κ V)) (mem' : κ → V) : Prop :=
  Relation.ReflTransGen (fun a b : List (Prog κ V) × (κ → V) => Interleaved a.1 a.2 b.1 b.2) (ts, mem) (ts', mem')

theorem Interleaving.tail {ts ts' ts'' : List (Prog κ V)} {mem mem' mem'' : κ → V} (h : Interleaving ts mem ts' mem')
    (hs : Interleaved ts' mem' ts'' mem'') : Interleaving ts mem ts'' mem'' :=
  Relation.ReflTransGen.tail (b := (ts', mem')) (c := (ts'', mem'')) h hs

theorem Interleaving.refl {ts : List (Prog κ V)} {mem : κ → V} : Interleaving ts mem ts mem := Relation.ReflTransGen.refl

/-- The program only depends on the cells it may read. -/
theorem Disciplined.congr {ε : Type} {owner : κ → Option ε} {e : ε} {p : Prog κ V} (h : Disciplined owner e p) {mem mem' : κ → V}
    (hm : ∀ c, owner c = none ∨ owner c = some e → mem c = mem' c) :
    ∀ c, owner c = none ∨ owner c = some e → p.run mem c = p.run mem' c := by
  induction p generalizing mem mem' with
  | done => exact hm
  | read c k ih =>
    intro c' hc'
    rw [Prog.run, Prog.run, hm c h.1]
    exact ih _ (h.2 _) hm c' hc'
  | write c v k ih =>
    intro c' hc'
    rw [Prog.run, Prog.run]
    refine ih h.2 (fun c'' h'' => ?_) c' hc'
    rw [Prog.store, Prog.store, hm c'' h'']

/-- The program leaves the cells of the others. -/
theorem Disciplined.frame {ε : Type} {owner : κ → Option ε} {e : ε} {p : Prog κ V} (h : Disciplined owner e p) {mem : κ → V} {c : κ}
    (hc : owner c ≠ some e) : p.run mem c = mem c := by
  induction p generalizing mem with
  | done => rfl
  | read c' k ih => exact ih _ (h.2 _)
  | write c' v k ih =>
    rw [Prog.run, ih h.2, Prog.store, if_neg]
    rintro rfl
    exact hc h.1

/-- A disciplined functor is independent in the sense of `C19_independent`. -/
theorem Disciplined.independent {l : List (Elem τ)} {owner : κ → Option (Elem τ)} {f : Elem τ → Prog κ V}
    (h : ∀ e ∈ l, Disciplined owner e (f e)) : Independent l owner (fun e => (f e).run) where
  frame e he _ _ hc := (h e he).frame hc
  reads e he _ _ hm c hc := (h e he).congr hm c (.inr hc)

/-- What holds in all states: every iteration, if it ran alone from now on, would leave in its cells what it would have
left alone from the start. -/
def Consistent {ε : Type} (owner : κ → Option ε) (goal : ε → κ → V) (mem0 : κ → V) (es : List ε) (ts : List (Prog κ V))
    (mem : κ → V) : Prop :=
  List.Forall₂ (fun e p => Disciplined owner e p ∧ ∀ c, owner c = some e → p.run mem c = goal e c) es ts ∧
    ∀ c, (∀ e ∈ es, owner c ≠ some e) → mem c = mem0 c

theorem forall₂_split {α β : Type} {R : α → β → Prop} {x : β} {after : List β} :
    ∀ {before : List β} {l : List α}, List.Forall₂ R l (before ++ x :: after) →
      ∃ lb a la, l = lb ++ a :: la ∧ List.Forall₂ R lb before ∧ R a x ∧ List.Forall₂ R la after
  | [], _, h => by
    obtain ⟨a, la, h1, h2, rfl⟩ := List.forall₂_cons_right_iff.1 h
    exact ⟨[], a, la, rfl, .nil, h1, h2⟩
  | y :: before, _, h => by
    obtain ⟨b, l', h1, h2, rfl⟩ := List.forall₂_cons_right_iff.1 h
    obtain ⟨lb, a, la, rfl, g1, g2, g3⟩ := forall₂_split h2
    exact ⟨b :: lb, a, la, rfl, .cons h1 g1, g2, g3⟩

theorem forall₂_imp_mem {α β : Type} {R R' : α → β → Prop} {l : List α} {m : List β} (h : List.Forall₂ R l m)
    (hi : ∀ a ∈ l, ∀ b, R a b → R' a b) : List.Forall₂ R' l m := by
  induction h with
  | nil => exact .nil
  | cons h1 _ ih => exact .cons (hi _ (by simp) _ h1) (ih fun a ha => hi a (by simp [ha]))

theorem forall₂_mem {α β : Type} {R : α → β → Prop} {l : List α} {m : List β} (h : List.Forall₂ R l m) {a : α} (ha : a ∈ l) :
    ∃ b ∈ m, R a b := by
  induction h with
  | nil => simp at ha
  | cons h1 _ ih =>
    rcases List.mem_cons.1 ha with rfl | ha
    · exact ⟨_, by simp, h1⟩
    · obtain ⟨b, hb, hr⟩ := ih ha
      exact ⟨b, by simp [hb], hr⟩

theorem consistent_step {ε : Type} {owner : κ → Option ε} {goal : ε → κ → V} {mem0 : κ → V} {es : List ε} (hn : es.Nodup)
    {ts ts' : List (Prog κ V)} {mem mem' : κ → V} (h : Consistent owner goal mem0 es ts mem)
    (hs : Interleaved ts mem ts' mem') : Consistent owner goal mem0 es ts' mem' := by
  obtain ⟨h1, h2⟩ := h
  cases hs with
  | read before after c k =>
    obtain ⟨eb, e, ea, rfl, hb, ⟨he, hg⟩, ha⟩ := forall₂_split h1
    exact ⟨List.rel_append hb (.cons ⟨he.2 _, hg⟩ ha), h2⟩
  | write before after c v k =>
    obtain ⟨eb, e, ea, rfl, hb, ⟨he, hg⟩, ha⟩ := forall₂_split h1
    have hother : ∀ e', e' ∈ eb ∨ e' ∈ ea → e' ≠ e := by
      rintro e' h' rfl
      rw [List.nodup_append] at hn
      obtain ⟨-, n2, n3⟩ := hn
      rcases h' with h' | h'
      · exact n3 _ h' _ (by simp) rfl
      · exact (List.nodup_cons.1 n2).1 h'
    have keep : ∀ e', e' ≠ e → ∀ p, (Disciplined owner e' p ∧ ∀ c, owner c = some e' → p.run mem c = goal e' c) →
        Disciplined owner e' p ∧ ∀ c', owner c' = some e' → p.run (Prog.store mem c v) c' = goal e' c' := by
      rintro e' hne p ⟨g1, g2⟩
      refine ⟨g1, fun c' hc' => ?_⟩
      rw [← g2 c' hc']
      refine g1.congr (fun c'' h'' => ?_) c' (.inr hc')
      rw [Prog.store, if_neg]
      rintro rfl
      rw [he.1] at h''
      rcases h'' with h'' | h''
      · cases h''
      · exact hne (Option.some.inj h'').symm
    refine ⟨List.rel_append (forall₂_imp_mem hb fun e' h' => keep e' (hother e' (.inl h')))
      (.cons ⟨he.2, hg⟩ (forall₂_imp_mem ha fun e' h' => keep e' (hother e' (.inr h')))), fun c' hc' => ?_⟩
    rw [← h2 c' hc', Prog.store, if_neg]
    rintro rfl
    exact hc' e (by simp) he.1

theorem consistent_all {ε : Type} {owner : κ → Option ε} {goal : ε → κ → V} {mem0 : κ → V} {es : List ε} (hn : es.Nodup)
    {ts ts' : List (Prog κ V)} {mem mem' : κ → V} (h : Consistent owner goal mem0 es ts mem)
    (hs : Interleaving ts mem ts' mem') : Consistent owner goal mem0 es ts' mem' := by
  suffices ∀ b : List (Prog κ V) × (κ → V), Relation.ReflTransGen
      (fun a b : List (Prog κ V) × (κ → V) => Interleaved a.1 a.2 b.1 b.2) (ts, mem) b → Consistent owner goal mem0 es b.1 b.2 from
    this _ hs
  intro b hb
  induction hb with
  | refl => exact h
  | tail _ h' ih => exact consistent_step hn ih h'

theorem launch_eq {S : Support τ} {f : Elem τ → Prog κ V} {pol : List (List I64)} {es : List (Elem τ)}
    (h : pol.mapM (Support.adapter S) = .ok es) : Support.launch S f pol = .ok (es.map f) := by
  induction pol generalizing es with
  | nil =>
    obtain rfl : es = [] := (Res.ok.inj h).symm
    rfl
  | cons x pol ih =>
    rw [List.mapM_cons] at h
    obtain ⟨y, h1, h⟩ := Res.bind_eq_ok.1 h
    obtain ⟨ys, h2, h⟩ := Res.bind_eq_ok.1 h
    obtain rfl : es = y :: ys := (Res.ok.inj h).symm
    have := ih h2
    rw [Support.launch] at this ⊢
    rw [List.mapM_cons, h1, Res.ok_bind, Res.ok_bind, this]
    rfl

/-- One program per element, and every interleaving of their accesses that comes to an end leaves the memory of
the sequential host loop. -/
theorem C19_interleaving {S : Support τ} {l : List (Elem τ)} (hS : Elements S l) {n : Vect τ} (hn : S.extents = .ok n)
    {owner : κ → Option (Elem τ)} {f : Elem τ → Prog κ V} (hf : ∀ e ∈ l, Disciplined owner e (f e)) (mem : κ → V) :
    ∃ es : List (Elem τ), es.Perm l ∧ Support.launch S f (Support.policy n.vals) = .ok (es.map f) ∧
      ∀ ts' mem', Interleaving (es.map f) mem ts' mem' → (∀ p ∈ ts', p = .done) →
        Support.forEach S (fun e s => .ok ((f e).run s)) mem = .ok mem' := by
  obtain ⟨es, e1, e2⟩ := schedule_elements hS hn (.refl _)
  obtain ⟨ax, -, h2, -, h4⟩ := hS.grid
  have hnd : es.Nodup := (e1.trans h2.symm).nodup_iff.2 h4
  refine ⟨es, e1, launch_eq e2, fun ts' mem' hI hdone => ?_⟩
  obtain ⟨m, -, m1, m2, m3⟩ := C19_independent hS hn (Disciplined.independent hf) (.refl _) mem
  rw [m1]
  congr 1
  have hc : Consistent owner (fun e c => (f e).run mem c) mem es (es.map f) mem := by
    refine ⟨?_, fun _ _ => rfl⟩
    rw [List.forall₂_map_right_iff, List.forall₂_same]
    exact fun e he => ⟨hf e (e1.mem_iff.1 he), fun _ _ => rfl⟩
  obtain ⟨g1, g2⟩ := consistent_all hnd hc hI
  funext c
  by_cases hc : ∃ e ∈ l, owner c = some e
  · obtain ⟨e, he, hoc⟩ := hc
    rw [m2 c e hoc he]
    obtain ⟨p, hp, hr⟩ : ∃ p ∈ ts', p.run mem' c = (f e).run mem c := by
      have he' := e1.mem_iff.2 he
      obtain ⟨p, hp, hr⟩ := forall₂_mem g1 he'
      exact ⟨p, hp, hr.2 c hoc⟩
    rw [hdone p hp] at hr
    exact hr.symm
  · rw [m3 c fun e he h => hc ⟨e, he, h⟩, g2 c fun e he h => hc ⟨e, e1.mem_iff.1 he, h⟩]

/-- What is left of a program after one access. -/
inductive Rest : Prog κ V → Prog κ V → Prop where
  | read (c : κ) (k : V → Prog κ V) (v : V) : Rest (k v) (.read c k)
  | write (c : κ) (v : V) (k : Prog κ V) : Rest k (.write c v k)

theorem rest_wf (p : Prog κ V) : Acc Rest p := by
  induction p with
  | done => exact ⟨_, fun _ h => by cases h⟩
  | read c k ih => exact ⟨_, fun _ h => by cases h; exact ih _⟩
  | write c v k ih => exact ⟨_, fun _ h => by cases h; exact ih⟩

/-- One access of one of the programs, whatever the memory. -/
def RestAny (ts' ts : List (Prog κ V)) : Prop :=
  ∃ before p p' after, ts = before ++ p :: after ∧ ts' = before ++ p' :: after ∧ Rest p' p

theorem restAny_wf (ts : List (Prog κ V)) : Acc RestAny ts := by
  induction ts with
  | nil =>
    refine ⟨_, ?_⟩
    rintro _ ⟨before, p, p', after, h, -, -⟩
    simp at h
  | cons p ts ih =>
    have hp := rest_wf p
    induction hp generalizing ts with
    | intro p _ ihp =>
      induction ih with
      | intro ts hts iht =>
        refine ⟨_, ?_⟩
        rintro _ ⟨before, q, q', after, h, rfl, hq⟩
        cases before with
        | nil =>
          obtain ⟨rfl, rfl⟩ := List.cons.inj h
          exact ihp q' hq ts ⟨_, hts⟩
        | cons x before =>
          obtain ⟨rfl, rfl⟩ := List.cons.inj h
          exact iht _ ⟨before, q, q', after, rfl, rfl, hq⟩

/-- Every execution comes to an end, for any programs. -/
theorem C19_interleaving_ends :
    WellFounded (fun b a : List (Prog κ V) × (κ → V) => Interleaved a.1 a.2 b.1 b.2) := by
  refine Subrelation.wf (r := InvImage RestAny Prod.fst) ?_ (InvImage.wf _ ⟨restAny_wf⟩)
  rintro ⟨ts', mem'⟩ ⟨ts, mem⟩ h
  cases h with
  | read before after c k => exact ⟨before, _, _, after, rfl, rfl, .read _ _ _⟩
  | write before after c v k => exact ⟨before, _, _, after, rfl, rfl, .write _ _ _⟩

/-- An execution only stops when all programs are done. -/
theorem C19_interleaving_progress (ts : List (Prog κ V)) (mem : κ → V) (h : ∃ p ∈ ts, p ≠ .done) :
    ∃ ts' mem', Interleaved ts mem ts' mem' := by
  obtain ⟨p, hp, hne⟩ := h
  obtain ⟨before, after, rfl⟩ := List.append_of_mem hp
  cases p with
  | done => exact absurd rfl hne
  | read c k => exact ⟨_, _, .read before after c k mem⟩
  | write c v k => exact ⟨_, _, .write before after c v k mem⟩

/-- The cell of the next access, and whether it is a write. -/
def Next : Prog κ V → κ → Bool → Prop
  | .done, _, _ => False
  | .read c _, c', w => c' = c ∧ w = false
  | .write c _ _, c', w => c' = c ∧ w = true

/-- No data race: whenever two iterations are about to access the same cell, both read it. -/
theorem C19_race_free {l : List (Elem τ)} (hl : l.Nodup) {owner : κ → Option (Elem τ)} {f : Elem τ → Prog κ V}
    (hf : ∀ e ∈ l, Disciplined owner e (f e)) {mem mem' : κ → V} {before between after : List (Prog κ V)} {p q : Prog κ V}
    (hI : Interleaving (l.map f) mem (before ++ p :: (between ++ q :: after)) mem') {c : κ} {w w' : Bool}
    (hp : Next p c w) (hq : Next q c w') : w = false ∧ w' = false := by
  have hc : Consistent owner (fun e c => (f e).run mem c) mem l (l.map f) mem := by
    refine ⟨?_, fun _ _ => rfl⟩
    rw [List.forall₂_map_right_iff, List.forall₂_same]
    exact fun e he => ⟨hf e he, fun _ _ => rfl⟩
  obtain ⟨g1, -⟩ := consistent_all hl hc hI
  obtain ⟨lb, e, lr, rfl, -, ⟨he, -⟩, hr⟩ := forall₂_split g1
  obtain ⟨lm, e', la, rfl, -, ⟨he', -⟩, -⟩ := forall₂_split hr
  have hne : e ≠ e' := by
    rintro rfl
    rw [List.nodup_append] at hl
    exact (List.nodup_cons.1 hl.2.1).1 (by simp)
  have own : ∀ {e : Elem τ} {p : Prog κ V} {w : Bool}, Disciplined owner e p → Next p c w →
      (owner c = none ∧ w = false) ∨ owner c = some e := by
    intro e p w hd hn
    cases p with
    | done => cases hn
    | read c' k =>
      obtain ⟨rfl, rfl⟩ := hn
      exact hd.1.imp (fun h => ⟨h, rfl⟩) id
    | write c' v k =>
      obtain ⟨rfl, rfl⟩ := hn
      exact .inr hd.1
  rcases own he hp with ⟨h1, h2⟩ | h1 <;> rcases own he' hq with ⟨h3, h4⟩ | h3
  · exact ⟨h2, h4⟩
  · rw [h1] at h3; cases h3
  · rw [h1] at h3; cases h3
  · exact absurd (Option.some.inj (h1.symm.trans h3)) hne

/-- `parallel_transform` with the two accesses of every iteration interleaved with those of the others. -/
theorem C19_transform_interleaving {S : Support τ} {l : List (Elem τ)} (hS : Elements S l) {n : Vect τ}
    (hn : S.extents = .ok n) (g : V → V) (mem : Elem τ → V) :
    ∃ ts, Support.launch S (fun e => .read e fun v => .write e (g v) .done) (Support.policy n.vals) = .ok ts ∧
      ∀ ts' mem', Interleaving ts mem ts' mem' → (∀ p ∈ ts', p = .done) → mem' = fun c => if c ∈ l then g (mem c) else mem c := by
  obtain ⟨es, e1, e2, e3⟩ := C19_interleaving (κ := Elem τ) (V := V) hS hn (owner := some)
    (f := fun e => .read e fun v => .write e (g v) .done) (fun e _ => ⟨.inr rfl, fun _ => ⟨rfl, trivial⟩⟩) mem
  refine ⟨_, e2, fun ts' mem' hI hd => ?_⟩
  have h1 := e3 ts' mem' hI hd
  obtain ⟨m, m1, m2, m3, m4⟩ := C19_independent hS hn (κ := Elem τ) (V := V) (owner := some)
    (f := fun e => (Prog.read e fun v => .write e (g v) .done).run)
    (Disciplined.independent fun e _ => ⟨.inr rfl, fun _ => ⟨rfl, trivial⟩⟩) (.refl _) mem
  rw [m2] at h1
  obtain rfl := Res.ok.inj h1
  funext c
  by_cases hc : c ∈ l
  · rw [m3 c c rfl hc, if_pos hc]
    simp [Prog.run, Prog.store]
  · rw [m4 c fun e he h => hc (Option.some.inj h ▸ he), if_neg hc]

/-- Without the discipline the result depends on the interleaving: two iterations that increment the same cell can
leave it with one increment only. -/
theorem C19_racy : ∃ f : Nat → Prog Unit Nat, (∀ e, (f e).run (fun _ => 0) () = 1) ∧
    (∃ mem', Interleaving [f 0, f 1] (fun _ => 0) [.done, .done] mem' ∧ mem' () = 2) ∧
    ∃ mem', Interleaving [f 0, f 1] (fun _ => 0) [.done, .done] mem' ∧ mem' () = 1 := by
  obtain ⟨k, hk⟩ : ∃ k : Nat → Prog Unit Nat, k = fun v => .write () (v + 1) .done := ⟨_, rfl⟩
  refine ⟨fun _ => .read () k, fun _ => by rw [hk]; rfl, ⟨Prog.store (Prog.store (fun _ => 0) () 1) () 2, ?_, rfl⟩,
    ⟨Prog.store (Prog.store (fun _ => 0) () 1) () 1, ?_, rfl⟩⟩
  · have s1 : Interleaved [Prog.read () k, .read () k] (fun _ => 0) [k 0, .read () k] (fun _ => 0) := .read [] [_] () k _
    have s2 : Interleaved [k 0, .read () k] (fun _ => 0) [.done, .read () k] (Prog.store (fun _ => 0) () 1) := by
      rw [hk]; exact .write [] [_] () 1 .done _
    have s3 : Interleaved [.done, .read () k] (Prog.store (fun _ => 0) () 1) [.done, k 1] (Prog.store (fun _ => 0) () 1) :=
      .read [.done] [] () k _
    have s4 : Interleaved [.done, k 1] (Prog.store (fun _ => 0) () 1) [.done, .done] (Prog.store (Prog.store (fun _ => 0) () 1) () 2) := by
      rw [hk]; exact .write [.done] [] () 2 .done _
    exact (((Interleaving.refl.tail s1).tail s2).tail s3).tail s4
  · have s1 : Interleaved [Prog.read () k, .read () k] (fun _ => 0) [k 0, .read () k] (fun _ => 0) := .read [] [_] () k _
    have s2 : Interleaved [k 0, .read () k] (fun _ => 0) [k 0, k 0] (fun _ => 0) := .read [_] [] () k _
    have s3 : Interleaved [k 0, k 0] (fun _ => 0) [.done, k 0] (Prog.store (fun _ => 0) () 1) := by
      rw [hk]; exact .write [] [_] () 1 .done _
    have s4 : Interleaved [.done, k 0] (Prog.store (fun _ => 0) () 1) [.done, .done] (Prog.store (Prog.store (fun _ => 0) () 1) () 1) := by
      rw [hk]; exact .write [.done] [] () 1 .done _
    exact (((Interleaving.refl.tail s1).tail s2).tail s3).tail s4

/-- The hypotheses of `C19_interleaving` hold for a functor that adds a shared cell to its own. -/
example (mem : Option (Elem Char) → Nat) : ∃ ts, Support.launch (Dom.support [('x', (1, 3))])
      (fun e => Prog.read none fun v => .read (some e) fun w => .write (some e) (v + w) .done) (Support.policy [2]) = .ok ts ∧
    ∀ ts' mem', Interleaving ts mem ts' mem' → (∀ p ∈ ts', p = .done) → mem' (some [('x', 1)]) = mem none + mem (some [('x', 1)]) := by
  have hd : Valid ([('x', (1, 3))] : Dom Char) := ⟨by decide, by decide⟩
  have hS : Elements (Dom.support ([('x', (1, 3))] : Dom Char)) [[('x', 1)], [('x', 2)]] := by
    refine .contiguous hd (by decide) fun e => ?_
    rw [← mem_cart_axes hd, show cart (axes ([('x', (1, 3))] : Dom Char)) = [[('x', 1)], [('x', 2)]] by decide]
  have hf : ∀ e ∈ [[('x', (1 : U64))], [('x', 2)]], Disciplined (id : Option (Elem Char) → Option (Elem Char)) e
      (Prog.read none fun v : Nat => .read (some e) fun w => .write (some e) (v + w) .done) :=
    fun e _ => ⟨.inl rfl, fun _ => ⟨.inr rfl, fun _ => ⟨rfl, trivial⟩⟩⟩
  obtain ⟨es, -, e2, e3⟩ := C19_interleaving hS (n := [('x', 2)]) (by decide) hf mem
  refine ⟨_, e2, fun ts' mem' hI hdone => ?_⟩
  obtain ⟨m, -, m2, m3, -⟩ := C19_independent hS (n := [('x', 2)]) (by decide) (Disciplined.independent hf) (.refl _) mem
  have := e3 ts' mem' hI hdone
  rw [m2] at this
  obtain rfl := Res.ok.inj this
  rw [m3 (some [('x', 1)]) [('x', 1)] rfl (by simp)]
  simp [Prog.run, Prog.store]

end DDC.Props
