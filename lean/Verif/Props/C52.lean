import Verif.Model.Pdi
import Mathlib.Data.List.Basic
import Mathlib.Data.List.Count
import Mathlib.Data.List.Induction
import Mathlib.Data.List.Nodup

/-!
# C52 — sharing with PDI
-/

namespace DDC.Props

open Pdi

variable {α : Type}

/-! ## Specification -/

/-- What a pointer given to PDI refers to. -/
inductive Shared (α : Type)
  /-- a private copy with this content -/
  | copy (v : Stored α)
  /-- the object of the caller -/
  | direct (a : Nat)
  deriving DecidableEq

/-- The shares that a step must give rise to. -/
def expectedShares : Step α → List (List Char × Shared α × Access)
  | .die _ => []
  | .call acc name (.chunk w a l) =>
    [(name ++ "_rank".toList, .copy (.size (BitVec.ofNat 64 l.length)), ⟨false, true⟩),
     (name ++ "_extents".toList, .copy (.sizes l), ⟨false, true⟩),
     (name, .direct a, acc.getD ⟨w, true⟩)]
  | .call acc name (.arith m a x) =>
    let acc := acc.getD ⟨m, true⟩
    [(name, if acc.in_ then .direct a else .copy (.value x), acc)]
  | .call _ name (.cstring a n) =>
    [(name ++ "_size".toList, .copy (.size n), ⟨false, true⟩), (name, .direct a, ⟨false, true⟩)]

/-- The calls of `with` that compile: input only into mutable data; no explicit access for C strings. -/
def Allowed : Step α → Prop
  | .die _ => True
  | .call none _ _ => True
  | .call (some acc) _ (.chunk w _ _) => acc.in_ = true → w = true
  | .call (some acc) _ (.arith m _ _) => acc.in_ = true → m = true
  | .call (some _) _ (.cstring _ _) => False

/-- The names shared in a trace. -/
def sharedNames (t : List (Act α)) : List (List Char) :=
  t.filterMap (fun a => match a with | .share n _ _ => some n | _ => none)

/-- The content of the copy `k` in a trace: that of the first creation of `k`. -/
def contentOf (t : List (Act α)) (k : Nat) : Option (Stored α) :=
  t.findSome? (fun a => match a with | .store j v => if j = k then some v else none | _ => none)

/-- What the pointers shared in a trace refer to: copies must have been created before. -/
def resolved (t : List (Act α)) : List (List Char × Option (Shared α) × Access) :=
  (List.range t.length).filterMap (fun i => match (t[i]? : Option (Act α)) with
    | some (.share n (.node k) acc) => some (n, (contentOf (t.take i) k).map .copy, acc)
    | some (.share n (.user a) acc) => some (n, some (.direct a), acc)
    | _ => none)

/-- The order of events of the life of a `PdiEvent` named `ev`: shares; the event; one reclaim for each
share; the destruction of the copies. -/
structure GoodLife (ev : List Char) (steps : List (Step α)) (t : List (Act α)) : Prop where
  shape : ∃ body frees,
    t = body ++ [.event ev] ++ (sharedNames body).map .reclaim ++ frees ∧
    -- before the event there are only shares, creations and what the caller does
    (∀ a ∈ body, (∃ k v, a = .store k v) ∨ (∃ n p acc, a = .share n p acc) ∨ ∃ x, a = .die x) ∧
    -- the shares are exactly those expected, in order, and the copies have the right contents
    resolved body = (steps.flatMap expectedShares).map (fun e => (e.1, some e.2.1, e.2.2)) ∧
    -- each copy is created once, and destroyed once after the last reclaim
    frees = (body.filterMap (fun a => match a with | .store k _ => some k | _ => none)).map .free ∧
    (body.filterMap (fun a => match a with | .store k _ => some k | _ => none)).Nodup ∧
    -- nothing else happens to the objects of the caller
    body.filterMap (fun a => match a with | .die x => some x | _ => none) =
      steps.filterMap (fun s => match s with | .die x => some x | _ => none)

/-! ## Proof -/

private theorem resolved_append (t : List (Act α)) (a : Act α) :
    resolved (t ++ [a]) = resolved t ++ (match a with
      | .share n (.node k) acc => [(n, (contentOf t k).map .copy, acc)]
      | .share n (.user x) acc => [(n, some (.direct x), acc)]
      | _ => []) := by
  rw [resolved, List.length_append, List.length_singleton, List.range_succ, List.filterMap_append]
  congr 1
  · refine List.filterMap_congr (fun i hi => ?_)
    have hi := List.mem_range.1 hi
    rw [List.getElem?_append_left hi, List.take_append_of_le_length (by omega)]
  · have : (t ++ [a])[t.length]? = some a := by simp
    simp only [List.filterMap_cons, List.filterMap_nil, this, List.take_left']
    cases a with
    | share n p acc => cases p <;> simp
    | _ => rfl

private theorem contentOf_append (t : List (Act α)) (a : Act α) (k : Nat) :
    contentOf (t ++ [a]) k = (contentOf t k).or (match a with | .store j v => if j = k then some v else none | _ => none) := by
  rw [contentOf, List.findSome?_append, contentOf]
  congr 1
  cases a <;> simp

/-- The invariant: `done` are the shares made, `dead` the objects of the caller that died. -/
private structure Mid (ev : List Char) (dead : List Nat) (done : List (List Char × Shared α × Access)) (s : Event α) : Prop where
  name : s.eventName = ev
  only : ∀ a ∈ s.trace, (∃ k v, a = .store k v) ∨ (∃ n p acc, a = .share n p acc) ∨ ∃ x, a = .die x
  names : s.names = sharedNames s.trace
  shares : resolved s.trace = done.map (fun e => (e.1, some e.2.1, e.2.2))
  stores : s.trace.filterMap (fun a => match a with | .store k _ => some k | _ => none) = List.range s.metadata.length
  absent : ∀ k, s.metadata.length ≤ k → contentOf s.trace k = none
  dies : s.trace.filterMap (fun a => match a with | .die x => some x | _ => none) = dead

/-- Share a copy. -/
private theorem Mid.copy {ev : List Char} {dead done} {s : Event α} (h : Mid ev dead done s) (n : List Char) (v : Stored α)
    (acc : Access) :
    Mid ev dead (done ++ [(n, .copy v, acc)])
      ⟨s.eventName, s.names ++ [n], s.metadata ++ [v],
        s.trace ++ [.store s.metadata.length v] ++ [.share n (.node s.metadata.length) acc]⟩ := by
  refine ⟨h.name, ?_, ?_, ?_, ?_, ?_, ?_⟩
  · intro a ha
    simp only [List.mem_append, List.mem_singleton] at ha
    rcases ha with (ha | rfl) | rfl
    · exact h.only a ha
    · exact .inl ⟨_, _, rfl⟩
    · exact .inr (.inl ⟨_, _, _, rfl⟩)
  · show s.names ++ [n] = _
    rw [h.names]
    simp [sharedNames]
  · show resolved (s.trace ++ _ ++ _) = _
    rw [resolved_append, resolved_append, h.shares]
    dsimp only
    rw [contentOf_append, h.absent _ (Nat.le_refl _)]
    simp
  · show (s.trace ++ _ ++ _).filterMap _ = _
    rw [List.filterMap_append, List.filterMap_append, h.stores]
    simp [List.range_succ]
  · intro k hk
    simp only [List.length_append, List.length_singleton] at hk
    show contentOf (s.trace ++ _ ++ _) k = none
    rw [contentOf_append, contentOf_append, h.absent k (by omega)]
    simp only [Option.none_or, Option.or_none]
    rw [if_neg (by omega)]
  · show (s.trace ++ _ ++ _).filterMap _ = _
    rw [List.filterMap_append, List.filterMap_append, h.dies]
    simp

/-- Share an object of the caller. -/
private theorem Mid.direct {ev : List Char} {dead done} {s : Event α} (h : Mid ev dead done s) (n : List Char) (x : Nat)
    (acc : Access) :
    Mid ev dead (done ++ [(n, .direct x, acc)])
      ⟨s.eventName, s.names ++ [n], s.metadata, s.trace ++ [.share n (.user x) acc]⟩ := by
  refine ⟨h.name, ?_, ?_, ?_, ?_, ?_, ?_⟩
  · intro a ha
    simp only [List.mem_append, List.mem_singleton] at ha
    rcases ha with ha | rfl
    · exact h.only a ha
    · exact .inr (.inl ⟨_, _, _, rfl⟩)
  · show s.names ++ [n] = _
    rw [h.names]
    simp [sharedNames]
  · show resolved (s.trace ++ _) = _
    rw [resolved_append, h.shares]
    simp
  · show (s.trace ++ _).filterMap _ = _
    rw [List.filterMap_append, h.stores]
    simp
  · intro k hk
    show contentOf (s.trace ++ _) k = none
    rw [contentOf_append, h.absent k hk]
    rfl
  · show (s.trace ++ _).filterMap _ = _
    rw [List.filterMap_append, h.dies]
    simp

private theorem defaultAccess_eq (w : Bool) : defaultAccess w = ⟨w, true⟩ := by cases w <;> rfl

private theorem guard_ok {acc : Access} {w : Bool} (h : acc.in_ = true → w = true) :
    (!acc.in_ || (defaultAccess w).in_) = true := by
  rw [defaultAccess_eq]
  cases hi : acc.in_ with
  | false => rfl
  | true => exact h hi

private theorem guard_no {acc : Access} {w : Bool} (h : ¬ (acc.in_ = true → w = true)) :
    (!acc.in_ || (defaultAccess w).in_) = false := by
  rw [defaultAccess_eq]
  cases hi : acc.in_ with
  | false => exact absurd (fun e => absurd (hi.symm.trans e) (by decide)) h
  | true => cases w with
    | true => exact absurd (fun _ => rfl) h
    | false => rfl

private theorem chunk_mid {ev : List Char} {dead done} {s : Event α} (h : Mid ev dead done s) (acc : Access) (name : List Char)
    (w : Bool) (a : Nat) (l : List U64) (ha : acc.in_ = true → w = true) :
    ∃ s', withChunk s acc name w a l = .ok s' ∧
      Mid ev dead (done ++ [(name ++ "_rank".toList, .copy (.size (BitVec.ofNat 64 l.length)), ⟨false, true⟩),
        (name ++ "_extents".toList, .copy (.sizes l), ⟨false, true⟩), (name, .direct a, acc)]) s' := by
  have := ((h.copy (name ++ "_rank".toList) (.size (BitVec.ofNat 64 l.length)) .OUT).copy
    (name ++ "_extents".toList) (.sizes l) .OUT).direct name a acc
  rw [withChunk, guard_ok ha]
  refine ⟨_, rfl, ?_⟩
  rw [List.append_assoc, List.append_assoc] at this
  exact this

private theorem arith_mid {ev : List Char} {dead done} {s : Event α} (h : Mid ev dead done s) (acc : Access) (name : List Char)
    (w : Bool) (a : Nat) (x : α) (ha : acc.in_ = true → w = true) :
    ∃ s', withArith s acc name w a x = .ok s' ∧
      Mid ev dead (done ++ [(name, if acc.in_ then .direct a else .copy (.value x), acc)]) s' := by
  rw [withArith, guard_ok ha]
  cases hi : acc.in_ with
  | true => exact ⟨_, rfl, h.direct name a acc⟩
  | false => exact ⟨_, rfl, h.copy name (.value x) acc⟩

private theorem step_mid {ev : List Char} {steps : List (Step α)} {s : Event α} (st : Step α)
    (h : Mid ev (steps.filterMap (fun s => match s with | .die x => some x | _ => none)) (steps.flatMap expectedShares) s) :
    (Allowed st → ∃ s', step s st = .ok s' ∧
      Mid ev ((steps ++ [st]).filterMap (fun s => match s with | .die x => some x | _ => none))
        ((steps ++ [st]).flatMap expectedShares) s') ∧
    (¬ Allowed st → step s st = .ill) := by
  have fm : ∀ acc name d, (steps ++ [Step.call acc name d]).filterMap
      (fun s : Step α => match s with | .die x => some x | _ => none) =
      steps.filterMap (fun s => match s with | .die x => some x | _ => none) := by
    intro acc name d
    rw [List.filterMap_append]
    simp
  have fl : (steps ++ [st]).flatMap expectedShares = steps.flatMap expectedShares ++ expectedShares st := by simp
  rw [fl]
  cases st with
  | die x =>
    refine ⟨fun _ => ⟨_, rfl, h.name, ?_, ?_, ?_, ?_, ?_, ?_⟩, fun hn => absurd trivial hn⟩
    · intro a ha
      simp only [List.mem_append, List.mem_singleton] at ha
      rcases ha with ha | rfl
      · exact h.only a ha
      · exact .inr (.inr ⟨_, rfl⟩)
    · show s.names = _
      rw [h.names]
      simp [sharedNames]
    · show resolved (s.trace ++ _) = _
      rw [resolved_append, h.shares]
      simp [expectedShares]
    · show (s.trace ++ _).filterMap _ = _
      rw [List.filterMap_append, h.stores]
      simp
    · intro k hk
      show contentOf (s.trace ++ _) k = none
      rw [contentOf_append, h.absent k hk]
      rfl
    · show (s.trace ++ _).filterMap _ = _
      rw [List.filterMap_append, List.filterMap_append, h.dies]
      simp
  | call acc name d =>
    rw [fm]
    cases d with
    | chunk w a l =>
      cases acc with
      | none =>
        refine ⟨fun _ => ?_, fun hn => absurd trivial hn⟩
        have := chunk_mid h ⟨w, true⟩ name w a l id
        rw [← defaultAccess_eq] at this
        rw [step, with']
        simpa only [expectedShares, Option.getD_none, ← defaultAccess_eq] using this
      | some acc =>
        refine ⟨fun ha => chunk_mid h acc name w a l ha, fun hn => ?_⟩
        rw [step, with', withChunk, guard_no hn]
        rfl
    | arith m a x =>
      cases acc with
      | none =>
        refine ⟨fun _ => ?_, fun hn => absurd trivial hn⟩
        have := arith_mid h ⟨m, true⟩ name m a x id
        rw [step, with', defaultAccess_eq]
        simpa only [expectedShares, Option.getD_none] using this
      | some acc =>
        refine ⟨fun ha => arith_mid h acc name m a x ha, fun hn => ?_⟩
        rw [step, with', withArith, guard_no hn]
        rfl
    | cstring a n =>
      cases acc with
      | none =>
        refine ⟨fun _ => ⟨_, rfl, ?_⟩, fun hn => absurd trivial hn⟩
        have := (h.copy (name ++ "_size".toList) (.size n) .OUT).direct name a .OUT
        rw [List.append_assoc] at this
        exact this
      | some acc => exact ⟨fun ha => absurd ha id, fun _ => rfl⟩

private theorem fold_mid {ev : List Char} (steps before : List (Step α)) (s : Event α)
    (h : Mid ev (before.filterMap (fun s => match s with | .die x => some x | _ => none)) (before.flatMap expectedShares) s) :
    ((∀ st ∈ steps, Allowed st) → ∃ s', steps.foldlM step s = .ok s' ∧
      Mid ev ((before ++ steps).filterMap (fun s => match s with | .die x => some x | _ => none))
        ((before ++ steps).flatMap expectedShares) s') ∧
    ((∃ st ∈ steps, ¬ Allowed st) → steps.foldlM step s = .ill) := by
  induction steps generalizing before s with
  | nil => exact ⟨fun _ => ⟨s, rfl, by rw [List.append_nil]; exact h⟩, fun ⟨st, hst, _⟩ => absurd hst (by simp)⟩
  | cons st steps ih =>
    obtain ⟨k1, k2⟩ := step_mid st h
    by_cases ha : Allowed st
    · obtain ⟨s', e1, e2⟩ := k1 ha
      obtain ⟨i1, i2⟩ := ih (before ++ [st]) s' e2
      rw [List.append_assoc, List.singleton_append] at i1
      refine ⟨fun hall => ?_, fun ⟨st', hst', hn⟩ => ?_⟩
      · rw [List.foldlM_cons, e1, Res.ok_bind]
        exact i1 (fun x hx => hall x (List.mem_cons_of_mem _ hx))
      · rw [List.foldlM_cons, e1, Res.ok_bind]
        rcases List.mem_cons.1 hst' with rfl | hm
        · exact absurd ha hn
        · exact i2 ⟨st', hm, hn⟩
    · refine ⟨fun hall => absurd (hall st (by simp)) ha, fun _ => ?_⟩
      rw [List.foldlM_cons, k2 ha]
      rfl

/-- **C52.**  For every sequence of calls of `with` and of ends of lives of objects of the caller: the
calls compile iff they are allowed, and then the event is triggered once, after all shares, each of
which is reclaimed once, in order; read-only arithmetic data, ranks, extents and sizes are shared
through copies with the values they had at the call, destroyed after the last reclaim. -/
theorem C52_life (ev : List Char) (steps : List (Step α)) :
    ((∀ st ∈ steps, Allowed st) → ∃ t, life ev steps = .ok t ∧ GoodLife ev steps t) ∧
    ((∃ st ∈ steps, ¬ Allowed st) → life ev steps = .ill) := by
  have h0 : Mid (α := α) ev [] [] (create ev) :=
    ⟨rfl, fun a ha => absurd ha (by simp [create]), rfl, rfl, rfl, fun _ _ => rfl, rfl⟩
  obtain ⟨k1, k2⟩ := fold_mid steps [] (create ev) h0
  refine ⟨fun hall => ?_, fun hn => ?_⟩
  · obtain ⟨s, s1, s2⟩ := k1 hall
    refine ⟨_, by rw [life, s1, Res.ok_bind]; rfl, ⟨s.trace, (List.range s.metadata.length).map .free, ?_, s2.only, ?_, ?_, ?_, ?_⟩⟩
    · rw [destroy, s2.name, s2.names]
    · exact s2.shares
    · rw [s2.stores]
    · rw [s2.stores]; exact List.nodup_range
    · exact s2.dies
  · rw [life, k2 hn]
    rfl

/-- **C52, once.**  If no name is shared twice, each shared name is reclaimed exactly once, and no
other name is. -/
theorem C52_once (ev : List Char) (steps : List (Step α)) (t : List (Act α)) (h : GoodLife ev steps t)
    (hd : ((steps.flatMap expectedShares).map Prod.fst).Nodup) [DecidableEq α] (n : List Char) :
    t.count (.event n) = (if n = ev then 1 else 0) ∧
    t.count (.reclaim n) = if n ∈ (steps.flatMap expectedShares).map Prod.fst then 1 else 0 := by
  obtain ⟨body, frees, rfl, only, shares, hfrees, _, _⟩ := h.shape
  have hn : sharedNames body = (steps.flatMap expectedShares).map Prod.fst := by
    have key : ∀ b : List (Act α), (resolved b).map Prod.fst = sharedNames b := by
      intro b
      induction b using List.reverseRec with
      | nil => rfl
      | append_singleton b a ih =>
        rw [resolved_append, List.map_append, ih, sharedNames, sharedNames, List.filterMap_append]
        congr 1
        cases a with
        | share n p acc => cases p <;> rfl
        | _ => rfl
    rw [← key, shares, List.map_map]
    rfl
  have b1 : body.count (.event n) = 0 := List.count_eq_zero.2 (fun hm => by
    rcases only _ hm with ⟨_, _, e⟩ | ⟨_, _, _, e⟩ | ⟨_, e⟩ <;> cases e)
  have b2 : body.count (.reclaim n) = 0 := List.count_eq_zero.2 (fun hm => by
    rcases only _ hm with ⟨_, _, e⟩ | ⟨_, _, _, e⟩ | ⟨_, e⟩ <;> cases e)
  have f1 : frees.count (.event n) = 0 := List.count_eq_zero.2 (fun hm => by
    rw [hfrees] at hm; obtain ⟨_, _, e⟩ := List.mem_map.1 hm; cases e)
  have f2 : frees.count (.reclaim n) = 0 := List.count_eq_zero.2 (fun hm => by
    rw [hfrees] at hm; obtain ⟨_, _, e⟩ := List.mem_map.1 hm; cases e)
  have r1 : ((sharedNames body).map (Act.reclaim (α := α))).count (.event n) = 0 := List.count_eq_zero.2 (fun hm => by
    obtain ⟨_, _, e⟩ := List.mem_map.1 hm; cases e)
  have r2 : ((sharedNames body).map (Act.reclaim (α := α))).count (.reclaim n) = (sharedNames body).count n :=
    List.count_map_of_injective _ _ (fun _ _ e => by cases e; rfl) _
  rw [List.count_append, List.count_append, List.count_append, List.count_append, List.count_append, List.count_append,
    b1, b2, f1, f2, r1, r2, hn]
  constructor
  · rw [List.count_singleton]
    simp only [beq_iff_eq, Act.event.injEq, Nat.zero_add, Nat.add_zero]
    by_cases he : n = ev
    · rw [if_pos he, if_pos he.symm]
    · rw [if_neg he, if_neg (fun e => he e.symm)]
  · rw [List.count_singleton, if_neg (by simp)]
    simp only [Nat.zero_add, Nat.add_zero]
    split
    · rename_i hm; exact List.count_eq_one_of_mem hd hm
    · rename_i hm; exact List.count_eq_zero.2 hm

/-- **C52, `expose_to_pdi`.** -/
theorem C52_expose (acc : Option Access) (name : List Char) (d : Datum α) (h : Allowed (.call acc name d)) :
    ∃ t, expose acc name d = .ok t ∧ GoodLife name [.call acc name d] t :=
  (C52_life name [.call acc name d]).1 (fun st hst => by rw [List.mem_singleton] at hst; rw [hst]; exact h)

/-- Observation: unlike arithmetic values, C strings are not copied.  A temporary string given in a
statement of its own is dead when the event is triggered. -/
theorem C52_cstring_dangles : ∃ t, life (α := Nat) "e".toList [.call none "s".toList (.cstring 7 3), .die 7] = .ok t ∧
    t = [.store 0 (.size 3), .share "s_size".toList (.node 0) .OUT, .share "s".toList (.user 7) .OUT, .die 7,
      .event "e".toList, .reclaim "s_size".toList, .reclaim "s".toList, .free 0] := ⟨_, rfl, rfl⟩

/-! ## Concrete cases -/

example : ∀ st ∈ [Step.call none "a".toList (.chunk true 1 [2, 3]), .call (some .OUT) "b".toList (.arith true 2 (5 : Nat)),
    .die 2, .call none "c".toList (.arith true 3 6)], Allowed st := by
  intro st hst
  simp only [List.mem_cons, List.not_mem_nil, or_false] at hst
  rcases hst with rfl | rfl | rfl | rfl
  · trivial
  · exact fun h => rfl
  · trivial
  · trivial

example : life "e".toList [Step.call none "a".toList (.chunk true 1 [2, 3]), .call (some .OUT) "b".toList (.arith true 2 (5 : Nat)),
    .die 2, .call none "c".toList (.arith true 3 6)] = .ok
    [.store 0 (.size 2), .share "a_rank".toList (.node 0) .OUT, .store 1 (.sizes [2, 3]),
     .share "a_extents".toList (.node 1) .OUT, .share "a".toList (.user 1) .INOUT,
     .store 2 (.value 5), .share "b".toList (.node 2) .OUT, .die 2, .share "c".toList (.user 3) .INOUT,
     .event "e".toList, .reclaim "a_rank".toList, .reclaim "a_extents".toList, .reclaim "a".toList, .reclaim "b".toList,
     .reclaim "c".toList, .free 0, .free 1, .free 2] := by decide +kernel

end DDC.Props
