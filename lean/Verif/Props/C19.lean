import Verif.Lemmas.Reducer
import Verif.Lemmas.Enumerate
import Mathlib.Data.List.Basic

/-!
# C19  parallel_for_each runs the functor exactly once per element under every schedule

A schedule is any permutation of the iteration space handed to Kokkos.  In this file an
iteration is one step; `C19b` interleaves the single reads and writes of the iterations.
-/

namespace DDC.Props

open Tup Spec

variable {τ : Type} [DecidableEq τ]

theorem schedule_elements {S : Support τ} {l : List (Elem τ)} (hS : Elements S l) {n : Vect τ}
    (hn : S.extents = .ok n) {sched : List (List I64)} (hp : sched.Perm (Support.policy n.vals)) :
    ∃ es, es.Perm l ∧ sched.mapM (Support.adapter S) = .ok es := by
  obtain ⟨ax, h1, h2, _, _⟩ := hS.grid
  have hax := Support.adapter_policy h1
  have hn' : n = ax.map (fun a => (a.1, (BitVec.ofNat 64 a.2.length : I64))) := by
    have := h1.extents; rw [hn] at this; exact Res.ok.inj this
  subst hn'
  rw [Support.vals_lengths] at hp
  obtain ⟨es, e1, e2⟩ := Support.mapM_perm hp hax
  exact ⟨es, e2.trans h2, e1⟩

private theorem runSchedule_eq {S : Support τ} {σ : Type} (f : Elem τ → σ → Res σ) {sched : List (List I64)}
    {es : List (Elem τ)} (h : sched.mapM (Support.adapter S) = .ok es) (s : σ) :
    Support.runSchedule S f sched s = es.foldlM (fun s e => f e s) s := by
  induction sched generalizing es s with
  | nil =>
    have : es = [] := (Res.ok.inj h).symm
    subst this; rfl
  | cons x l ih =>
    rw [List.mapM_cons] at h
    obtain ⟨y, h1, h⟩ := Res.bind_eq_ok.1 h
    obtain ⟨ys, h2, h⟩ := Res.bind_eq_ok.1 h
    have h : es = y :: ys := (Res.ok.inj h).symm
    subst h
    simp only [Support.runSchedule, List.foldlM_cons, h1, Res.ok_bind]
    congr 1
    funext s'
    exact ih h2 s'

/-- Under every schedule the functor is called on the elements of the domain, each once,
in the order of the schedule; in particular as many times as there are elements. -/
theorem C19_schedule {S : Support τ} {l : List (Elem τ)} (hS : Elements S l) {n : Vect τ} (hn : S.extents = .ok n)
    {sched : List (List I64)} (hp : sched.Perm (Support.policy n.vals)) :
    ∃ es : List (Elem τ), es.Perm l ∧ ∀ (σ : Type) (f : Elem τ → σ → Res σ) (s : σ),
      Support.runSchedule S f sched s = es.foldlM (fun s e => f e s) s := by
  obtain ⟨es, h1, h2⟩ := schedule_elements hS hn hp
  exact ⟨es, h1, fun σ f s => runSchedule_eq f h2 s⟩

/-- Every order of the elements is the effect of some schedule. -/
theorem C19_all_orders {S : Support τ} {l : List (Elem τ)} (hS : Elements S l) {n : Vect τ} (hn : S.extents = .ok n)
    {es : List (Elem τ)} (he : es.Perm l) :
    ∃ sched : List (List I64), sched.Perm (Support.policy n.vals) ∧
      ∀ (σ : Type) (f : Elem τ → σ → Res σ) (s : σ),
        Support.runSchedule S f sched s = es.foldlM (fun s e => f e s) s := by
  obtain ⟨ms, h1, h2⟩ := schedule_elements hS hn (.refl _)
  obtain ⟨sched, h3, h4⟩ := Support.mapM_perm_inv h2 (he.trans h1.symm)
  exact ⟨sched, h3, fun σ f s => runSchedule_eq f h4 s⟩

/-- An independent functor over a memory `κ → V`: the iteration `e` writes only cells it
owns, and what it writes depends only on the cells no other iteration owns. -/
structure Independent {κ V : Type} (l : List (Elem τ)) (owner : κ → Option (Elem τ))
    (f : Elem τ → (κ → V) → (κ → V)) : Prop where
  frame : ∀ e ∈ l, ∀ mem c, owner c ≠ some e → f e mem c = mem c
  reads : ∀ e ∈ l, ∀ mem mem' : κ → V, (∀ c, (owner c = none ∨ owner c = some e) → mem c = mem' c) →
    ∀ c, owner c = some e → f e mem c = f e mem' c

omit [DecidableEq τ] in
private theorem fold_independent {κ V : Type} {l : List (Elem τ)} {owner : κ → Option (Elem τ)}
    {f : Elem τ → (κ → V) → (κ → V)} (hf : Independent l owner f) (m : List (Elem τ)) (hm : m.Nodup)
    (hml : ∀ e ∈ m, e ∈ l) (mem : κ → V) :
    (∀ c e, owner c = some e → e ∈ m → m.foldl (fun s e => f e s) mem c = f e mem c) ∧
    (∀ c, (∀ e ∈ m, owner c ≠ some e) → m.foldl (fun s e => f e s) mem c = mem c) := by
  induction m generalizing mem with
  | nil => simp
  | cons a m ih =>
    rw [List.nodup_cons] at hm
    obtain ⟨i1, i2⟩ := ih hm.2 (fun e he => hml e (by simp [he])) (f a mem)
    have ha := hml a (by simp)
    simp only [List.foldl_cons]
    constructor
    · intro c e hc he
      rcases List.mem_cons.1 he with rfl | he
      · refine i2 c ?_
        intro e' he' hc'
        rw [hc] at hc'; injection hc' with hc'; subst hc'
        exact hm.1 he'
      · have hne : a ≠ e := by rintro rfl; exact hm.1 he
        rw [i1 c e hc he]
        refine hf.reads e (hml e (by simp [he])) _ _ ?_ c hc
        intro c' hc'
        refine hf.frame a ha mem c' ?_
        rintro h
        rcases hc' with h' | h' <;> rw [h] at h' <;> simp [hne] at h'
    · intro c hc
      rw [i2 c (fun e he => hc e (by simp [he])), hf.frame a ha mem c (hc a (by simp))]

/-- An independent functor: every schedule ends in the memory of the sequential host
loop, where each owned cell has the value its owner computes from the initial memory. -/
theorem C19_independent {S : Support τ} {l : List (Elem τ)} (hS : Elements S l) {n : Vect τ} (hn : S.extents = .ok n)
    {κ V : Type} {owner : κ → Option (Elem τ)} {f : Elem τ → (κ → V) → (κ → V)} (hf : Independent l owner f)
    {sched : List (List I64)} (hp : sched.Perm (Support.policy n.vals)) (mem : κ → V) :
    ∃ mem', Support.runSchedule S (fun e s => .ok (f e s)) sched mem = .ok mem' ∧
      Support.forEach S (fun e s => .ok (f e s)) mem = .ok mem' ∧
      (∀ c e, owner c = some e → e ∈ l → mem' c = f e mem c) ∧
      (∀ c, (∀ e ∈ l, owner c ≠ some e) → mem' c = mem c) := by
  obtain ⟨ax, h1, h2, _, h4⟩ := hS.grid
  obtain ⟨es, e1, e2⟩ := schedule_elements hS hn hp
  have hfold : ∀ (m : List (Elem τ)) (s : κ → V),
      m.foldlM (fun s e => Res.ok (f e s)) s = .ok (m.foldl (fun s e => f e s) s) :=
    fun m s => Support.foldlM_ok m _ _ s (fun _ _ _ => rfl)
  have hes : es.Nodup := (e1.trans h2.symm).nodup_iff.2 h4
  obtain ⟨a1, a2⟩ := fold_independent hf es hes (fun e he => e1.mem_iff.1 he) mem
  obtain ⟨b1, b2⟩ := fold_independent hf (cart ax) h4 (fun e he => h2.mem_iff.1 he) mem
  have heq : (cart ax).foldl (fun s e => f e s) mem = es.foldl (fun s e => f e s) mem := by
    funext c
    by_cases hc : ∃ e ∈ l, owner c = some e
    · obtain ⟨e, he, hoc⟩ := hc
      rw [a1 c e hoc (e1.mem_iff.2 he), b1 c e hoc (h2.mem_iff.2 he)]
    · have hc' : ∀ e ∈ l, owner c ≠ some e := fun e he h => hc ⟨e, he, h⟩
      rw [a2 c (fun e he => hc' e (e1.mem_iff.1 he)), b2 c (fun e he => hc' e (h2.mem_iff.1 he))]
  refine ⟨es.foldl (fun s e => f e s) mem, ?_, ?_, ?_, ?_⟩
  · rw [runSchedule_eq _ e2, hfold]
  · rw [Support.forEach_eq h1, hfold, heq]; rfl
  · exact fun c e hoc he => a1 c e hoc (e1.mem_iff.2 he)
  · exact fun c hc => a2 c (fun e he => hc e (e1.mem_iff.1 he))

/-- `parallel_transform` on a chunk seen as a function of its elements (its cells are
distinct, see C15): every schedule replaces the value of each element by its transform,
once, and leaves the rest alone. -/
theorem C19_parallel_transform {S : Support τ} {l : List (Elem τ)} (hS : Elements S l) {n : Vect τ}
    (hn : S.extents = .ok n) {V : Type} (g : V → V) {sched : List (List I64)}
    (hp : sched.Perm (Support.policy n.vals)) (mem : Elem τ → V) :
    Support.runSchedule S (fun e s => .ok (Support.transformAdapter g e s)) sched mem
      = .ok (fun c => if c ∈ l then g (mem c) else mem c) := by
  have hf : Independent (κ := Elem τ) l (fun c => if c ∈ l then some c else none) (Support.transformAdapter g) := by
    constructor
    · intro e he mem c hc
      unfold Support.transformAdapter
      rw [if_neg]
      rintro rfl
      rw [if_pos he] at hc; exact hc rfl
    · intro e he mem mem' hmm c hc
      unfold Support.transformAdapter
      split at hc
      · injection hc with hc; subst hc
        rw [if_pos rfl, if_pos rfl, hmm c (.inr (by rw [if_pos he]))]
      · cases hc
  obtain ⟨mem', h1, _, h3, h4⟩ := C19_independent hS hn hf hp mem
  rw [h1]
  congr 1
  funext c
  by_cases hc : c ∈ l
  · rw [h3 c c (by simp [hc]) hc, if_pos hc]; simp [Support.transformAdapter]
  · rw [h4 c (by intro e he; simp [hc]), if_neg hc]

/-! Non-vacuity: a schedule of a 2 × 2 domain, and an independent functor. -/
example : ([[1, 1], [0, 0], [0, 1], [1, 0]] : List (List I64)).Perm (Support.policy [2, 2]) := by decide
example : Independent (τ := Char) (κ := Nat) (V := Nat) [[('x', 0)], [('x', 1)]]
    (fun c => if c = 0 then some [('x', 0)] else if c = 1 then some [('x', 1)] else none)
    (fun e mem c => if e = [('x', BitVec.ofNat 64 c)] ∧ c < 2 then mem c + mem 2 else mem c) := by
  constructor
  · intro e he mem c hc
    show (if _ then _ else _) = _
    rw [if_neg]
    rintro ⟨rfl, h2⟩
    have : c = 0 ∨ c = 1 := by omega
    rcases this with rfl | rfl <;> simp at hc
  · intro e he mem mem' h c hc
    have h2 := h 2 (by simp)
    have hc' := h c (.inr hc)
    simp only [h2, hc']

end DDC.Props
