import Verif.Model.DeviceSpace
import Mathlib.Logic.Function.Basic

/-!
# C68 — discrete spaces read on a device
-/

namespace DDC.Props

open Device

variable {δ κ S P : Type} [DecidableEq δ] [DecidableEq κ]

/-! ## Specification -/

/-- What a program may rely on: without a guard nothing is initialised, under a guard some dimensions have attributes. -/
abbrev Attrs (δ S P : Type) := δ → Option (S × Option P)

/-- A dimension that has attributes keeps them and the call throws; otherwise it gets those that were built, if any. -/
def Attrs.init (σ : Attrs δ S P) (c : Call δ S P) : Attrs δ S P × Spaces.Out :=
  match σ c.dim, c.attrs with
  | some _, _ => (σ, .threw)
  | none, none => (σ, .threw)
  | none, some a => (Function.update σ c.dim (some a), .returned)

/-- One call after the other until one throws. -/
def Attrs.inits : List (Call δ S P) → Attrs δ S P → Attrs δ S P × Spaces.Out
  | [], σ => (σ, .returned)
  | c :: l, σ =>
    match σ.init c with
    | (σ', .threw) => (σ', .threw)
    | (σ', .returned) => Attrs.inits l σ'

/-- An initialisation that needs others first: when the dimension has attributes it throws at once, when one of the others throws
it throws too (the ones before it stay initialised). -/
def Attrs.initWith (σ : Attrs δ S P) (inner : List (Call δ S P)) (c : Call δ S P) : Attrs δ S P × Spaces.Out :=
  match σ c.dim with
  | some _ => (σ, .threw)
  | none =>
    match Attrs.inits inner σ with
    | (σ', .threw) => (σ', .threw)
    | (σ', .returned) => σ'.init c

/-- The attributes after a history. -/
def attrsAfter : List (Device.Op δ S P) → Attrs δ S P → Attrs δ S P
  | [], σ => σ
  | .guard :: h, _ => attrsAfter h fun _ => none
  | .unguard :: h, _ => attrsAfter h fun _ => none
  | .init l c :: h, σ => attrsAfter h (σ.initWith l c).1

/-- Guard scopes do not overlap, initialisations take place inside of one, the dimensions initialised by a constructor are not
its own, and no copy to the device fails. -/
def DeviceScoped : Bool → List (Device.Op δ S P) → Prop
  | _, [] => True
  | false, .guard :: h => DeviceScoped true h
  | true, .unguard :: h => DeviceScoped false h
  | true, .init l c :: h => (∀ x ∈ l, x.dim ≠ c.dim ∧ x.copied = true) ∧ c.copied = true ∧ DeviceScoped true h
  | _, _ => False

/-- Is a guard alive after the history? -/
def deviceAlive : Bool → List (Device.Op δ S P) → Bool
  | b, [] => b
  | _, .guard :: h => deviceAlive true h
  | _, .unguard :: h => deviceAlive false h
  | b, .init _ _ :: h => deviceAlive b h

/-! ## Ownership of the buffers -/

/-- The live buffers are those of the objects of the initialised dimensions, each with one owner. -/
structure Owned (s : Device.State δ κ S P) : Prop where
  host : ∀ n, (s.hostMem n).isSome ↔ ∃ d x, s.dual d = some x ∧ x.host.ptr = some n
  dev : ∀ n, (s.devMem n).isSome ↔ ∃ d x, s.dual d = some x ∧ x.mirror.ptr = some n
  hostOne : ∀ d d' x x' n, s.dual d = some x → s.dual d' = some x' → x.host.ptr = some n → x'.host.ptr = some n → d = d'
  devOne : ∀ d d' x x' n, s.dual d = some x → s.dual d' = some x' → x.mirror.ptr = some n → x'.mirror.ptr = some n → d = d'
  fresh : ∀ n, s.next ≤ n → s.hostMem n = none ∧ s.devMem n = none

/-- Attributes `a` of a dimension, on the host and on the device. -/
def Stored (s : Device.State δ κ S P) (d : δ) : Option (S × Option P) → Prop
  | none => s.dual d = none
  | some a => ∃ x, s.dual d = some x ∧ s.symbol d = some x.mirror ∧ load s.hostMem x.host = .ok a ∧ load s.devMem x.mirror = .ok a

/-- State between two calls. -/
structure DeviceInv (name : δ → κ) (b : Bool) (s : Device.State δ κ S P) (σ : Attrs δ S P) : Prop where
  owned : Owned s
  stored : ∀ d, Stored s d (σ d)
  closed : b = false → s.store = none ∧ ∀ d, σ d = none
  opened : b = true → ∃ m, s.store = some m ∧ (∀ p ∈ m, p.1 = name p.2) ∧ (m.map Prod.snd).Nodup ∧
    ∀ d, d ∈ m.map Prod.snd ↔ (s.dual d).isSome

omit [DecidableEq δ] [DecidableEq κ] in
private theorem load_ptr {m : Nat → Option P} {i : Image S} {a : S × Option P} (h : load m i = .ok a) :
    (i.ptr = none ∧ a = (i.scalars, none)) ∨ ∃ n p, i.ptr = some n ∧ m n = some p ∧ a = (i.scalars, some p) := by
  rw [load] at h
  cases hp : i.ptr with
  | none => rw [hp] at h; simp at h; exact .inl ⟨rfl, h.symm⟩
  | some n =>
    rw [hp] at h
    cases hm : m n with
    | none => simp [hm] at h
    | some p => simp [hm] at h; exact .inr ⟨n, p, rfl, hm, h.symm⟩

private theorem load_congr {m m' : Nat → Option P} {i : Image S} {a : S × Option P} (h : load m i = .ok a)
    (hm : ∀ n, i.ptr = some n → (m n).isSome → m' n = m n) : load m' i = .ok a := by
  rcases load_ptr h with ⟨h1, h2⟩ | ⟨n, p, h1, h2, h3⟩
  · rw [load, h1, h2]
  · rw [load, h1]
    simp only
    rw [hm n h1 (by simp [h2]), h2]
    simp [h3]

/-- The construction of a dimension that is not initialised, with a successful copy. -/
private theorem construct_inv {name : δ → κ} (hinj : ∀ x y, name x = name y → x = y) {s : Device.State δ κ S P} {σ : Attrs δ S P}
    (hi : DeviceInv name true s σ) (c : Call δ S P) (hc : c.copied = true) (hd : σ c.dim = none) :
    ∃ s', s.construct name c = .ok (s', (σ.init c).2) ∧ DeviceInv name true s' (σ.init c).1 := by
  rw [State.construct, Attrs.init, hd]
  cases ha : c.attrs with
  | none => exact ⟨s, rfl, hi⟩
  | some a =>
    obtain ⟨m, m1, m2, m3, m4⟩ := hi.opened rfl
    have hs : s.dual c.dim = none := by
      have := hi.stored c.dim
      rwa [hd] at this
    have hnm : c.dim ∉ m.map Prod.snd := by rw [m4, hs]; simp
    have hem : Spaces.emplace m (name c.dim) c.dim = m ++ [(name c.dim, c.dim)] := by
      rw [Spaces.emplace, if_neg]
      simp only [List.any_eq_true, decide_eq_true_eq]
      rintro ⟨p, hp, he⟩
      rw [m2 p hp] at he
      exact hnm (List.mem_map.2 ⟨p, hp, hinj _ _ he⟩)
    have hst : ∀ x : Dual S, ∃ m', some (Spaces.emplace m (name c.dim) c.dim) = some m' ∧ (∀ p ∈ m', p.1 = name p.2) ∧ (m'.map Prod.snd).Nodup ∧
        ∀ d, d ∈ m'.map Prod.snd ↔ ((fun y => if y = c.dim then some x else s.dual y) d).isSome := by
      intro x
      refine ⟨_, rfl, ?_, ?_, ?_⟩
      · rw [hem]
        intro p hp
        rcases List.mem_append.1 hp with hp | hp
        · exact m2 p hp
        · rw [List.mem_singleton.1 hp]
      · rw [hem, List.map_append]
        refine List.nodup_append.2 ⟨m3, by simp, ?_⟩
        intro x hx y hy
        simp only [List.map_cons, List.map_nil, List.mem_singleton] at hy
        rintro rfl
        exact hnm (hy ▸ hx)
      · intro y
        rw [hem, List.map_append, List.mem_append, m4]
        by_cases hy : y = c.dim <;> simp [hy]
    obtain ⟨x, p⟩ := a
    cases p with
    | none =>
      simp only [State.buildHost, State.buildMirror, load, Res.ok_bind, Res.pure_eq, m1, hc]
      refine ⟨_, rfl, ?_, ?_, by simp, fun _ => ?_⟩
      · -- no new buffer
        refine ⟨fun n => ?_, fun n => ?_, ?_, ?_, hi.owned.fresh⟩
        · show (s.hostMem n).isSome ↔ _
          rw [hi.owned.host n]
          constructor
          · rintro ⟨d, y, h1, h2⟩
            refine ⟨d, y, ?_, h2⟩
            have : d ≠ c.dim := by rintro rfl; rw [hs] at h1; cases h1
            simp [this, h1]
          · rintro ⟨d, y, h1, h2⟩
            by_cases h : d = c.dim
            · simp [h] at h1; rw [← h1] at h2; cases h2
            · simp [h] at h1; exact ⟨d, y, h1, h2⟩
        · show (s.devMem n).isSome ↔ _
          rw [hi.owned.dev n]
          constructor
          · rintro ⟨d, y, h1, h2⟩
            refine ⟨d, y, ?_, h2⟩
            have : d ≠ c.dim := by rintro rfl; rw [hs] at h1; cases h1
            simp [this, h1]
          · rintro ⟨d, y, h1, h2⟩
            by_cases h : d = c.dim
            · simp [h] at h1; rw [← h1] at h2; cases h2
            · simp [h] at h1; exact ⟨d, y, h1, h2⟩
        · intro d d' y y' n h1 h2 h3 h4
          by_cases h : d = c.dim
          · simp [h] at h1; rw [← h1] at h3; cases h3
          · by_cases h' : d' = c.dim
            · simp [h'] at h2; rw [← h2] at h4; cases h4
            · simp [h] at h1; simp [h'] at h2
              exact hi.owned.hostOne d d' y y' n h1 h2 h3 h4
        · intro d d' y y' n h1 h2 h3 h4
          by_cases h : d = c.dim
          · simp [h] at h1; rw [← h1] at h3; cases h3
          · by_cases h' : d' = c.dim
            · simp [h'] at h2; rw [← h2] at h4; cases h4
            · simp [h] at h1; simp [h'] at h2
              exact hi.owned.devOne d d' y y' n h1 h2 h3 h4
      · intro d
        by_cases h : d = c.dim
        · subst h
          rw [Function.update_self]
          exact ⟨_, by simp; rfl, by simp, rfl, rfl⟩
        · rw [Function.update_of_ne h]
          have := hi.stored d
          revert this
          cases σ d with
          | none => intro hh; simpa [Stored, h] using hh
          | some a => intro hh; simpa [Stored, h] using hh
      · exact hst _
    | some q =>
      simp only [State.buildHost, State.buildMirror, load, Res.ok_bind, Res.pure_eq, if_true, m1, hc]
      refine ⟨_, rfl, ?_, ?_, by simp, fun _ => ?_⟩
      · have hl : ∀ n, (s.hostMem n).isSome → n < s.next := fun n hn => by
          by_contra hh
          rw [(hi.owned.fresh n (by omega)).1] at hn; cases hn
        have hl' : ∀ n, (s.devMem n).isSome → n < s.next := fun n hn => by
          by_contra hh
          rw [(hi.owned.fresh n (by omega)).2] at hn; cases hn
        refine ⟨fun n => ?_, fun n => ?_, ?_, ?_, ?_⟩
        · show ((if n = s.next then some q else s.hostMem n)).isSome ↔ _
          constructor
          · intro hn
            by_cases h : n = s.next
            · exact ⟨c.dim, _, by simp; rfl, by simp [h]⟩
            · rw [if_neg h, hi.owned.host n] at hn
              obtain ⟨d, y, h1, h2⟩ := hn
              refine ⟨d, y, ?_, h2⟩
              have : d ≠ c.dim := by rintro rfl; rw [hs] at h1; cases h1
              simp [this, h1]
          · rintro ⟨d, y, h1, h2⟩
            by_cases h : d = c.dim
            · simp [h] at h1; rw [← h1] at h2; simp at h2; simp [h2]
            · simp [h] at h1
              have := (hi.owned.host n).2 ⟨d, y, h1, h2⟩
              rw [if_neg (by have := hl n this; omega)]; exact this
        · show ((if n = s.next + 1 then some q else s.devMem n)).isSome ↔ _
          constructor
          · intro hn
            by_cases h : n = s.next + 1
            · exact ⟨c.dim, _, by simp; rfl, by simp [h]⟩
            · rw [if_neg h, hi.owned.dev n] at hn
              obtain ⟨d, y, h1, h2⟩ := hn
              refine ⟨d, y, ?_, h2⟩
              have : d ≠ c.dim := by rintro rfl; rw [hs] at h1; cases h1
              simp [this, h1]
          · rintro ⟨d, y, h1, h2⟩
            by_cases h : d = c.dim
            · simp [h] at h1; rw [← h1] at h2; simp at h2; simp [h2]
            · simp [h] at h1
              have := (hi.owned.dev n).2 ⟨d, y, h1, h2⟩
              rw [if_neg (by have := hl' n this; omega)]; exact this
        · intro d d' y y' n h1 h2 h3 h4
          by_cases h : d = c.dim
          · by_cases h' : d' = c.dim
            · rw [h, h']
            · simp [h] at h1; rw [← h1] at h3; simp at h3
              simp [h'] at h2
              have := hl n ((hi.owned.host n).2 ⟨d', y', h2, h4⟩)
              omega
          · by_cases h' : d' = c.dim
            · simp [h'] at h2; rw [← h2] at h4; simp at h4
              simp [h] at h1
              have := hl n ((hi.owned.host n).2 ⟨d, y, h1, h3⟩)
              omega
            · simp [h] at h1; simp [h'] at h2
              exact hi.owned.hostOne d d' y y' n h1 h2 h3 h4
        · intro d d' y y' n h1 h2 h3 h4
          by_cases h : d = c.dim
          · by_cases h' : d' = c.dim
            · rw [h, h']
            · simp [h] at h1; rw [← h1] at h3; simp at h3
              simp [h'] at h2
              have := hl' n ((hi.owned.dev n).2 ⟨d', y', h2, h4⟩)
              omega
          · by_cases h' : d' = c.dim
            · simp [h'] at h2; rw [← h2] at h4; simp at h4
              simp [h] at h1
              have := hl' n ((hi.owned.dev n).2 ⟨d, y, h1, h3⟩)
              omega
            · simp [h] at h1; simp [h'] at h2
              exact hi.owned.devOne d d' y y' n h1 h2 h3 h4
        · intro n hn
          have hn' : s.next + 1 + 1 ≤ n := hn
          have := hi.owned.fresh n (by omega)
          refine ⟨?_, ?_⟩
          · show (if n = s.next then some q else s.hostMem n) = none
            rw [if_neg (by omega)]; exact this.1
          · show (if n = s.next + 1 then some q else s.devMem n) = none
            rw [if_neg (by omega)]; exact this.2
      · intro d
        by_cases h : d = c.dim
        · subst h
          rw [Function.update_self]
          exact ⟨_, by simp; rfl, by simp, by simp [load], by simp [load]⟩
        · rw [Function.update_of_ne h]
          have hh := hi.stored d
          cases he : σ d with
          | none => rw [he] at hh; simpa [Stored, h] using hh
          | some a =>
            rw [he] at hh
            obtain ⟨y, y1, y2, y3, y4⟩ := hh
            refine ⟨y, by simp [h, y1], by simp [h, y2], load_congr y3 ?_, load_congr y4 ?_⟩
            · intro n _ hn
              have : n ≠ s.next := by rintro rfl; rw [(hi.owned.fresh s.next (by omega)).1] at hn; cases hn
              simp [this]
            · intro n _ hn
              have : n ≠ s.next + 1 := by rintro rfl; rw [(hi.owned.fresh (s.next + 1) (by omega)).2] at hn; cases hn
              simp [this]
      · exact hst _

omit [DecidableEq δ] [DecidableEq κ] in
private theorem stored_none {s : Device.State δ κ S P} {d : δ} {a : Option (S × Option P)} (h : Stored s d a) :
    s.dual d = none ↔ a = none := by
  cases a with
  | none => simpa [Stored] using h
  | some a => obtain ⟨x, h1, _⟩ := h; simp [h1]

private theorem init_inv {name : δ → κ} (hinj : ∀ x y, name x = name y → x = y) {s : Device.State δ κ S P} {σ : Attrs δ S P}
    (hi : DeviceInv name true s σ) (c : Call δ S P) (hc : c.copied = true) :
    ∃ s', s.init name c = .ok (s', (σ.init c).2) ∧ DeviceInv name true s' (σ.init c).1 := by
  cases hd : σ c.dim with
  | none =>
    rw [State.init, (stored_none (hi.stored c.dim)).2 hd]
    exact construct_inv hinj hi c hc hd
  | some a =>
    have h := hi.stored c.dim
    rw [hd] at h
    obtain ⟨x, hx, _⟩ := h
    rw [State.init, hx, Attrs.init, hd]
    exact ⟨s, rfl, hi⟩

private theorem inits_inv {name : δ → κ} (hinj : ∀ x y, name x = name y → x = y) (l : List (Call δ S P)) (hl : ∀ c ∈ l, c.copied = true)
    {s : Device.State δ κ S P} {σ : Attrs δ S P} (hi : DeviceInv name true s σ) :
    ∃ s', State.inits name l s = .ok (s', (Attrs.inits l σ).2) ∧ DeviceInv name true s' (Attrs.inits l σ).1 := by
  induction l generalizing s σ with
  | nil => exact ⟨s, rfl, hi⟩
  | cons c l ih =>
    obtain ⟨s1, h1, h2⟩ := init_inv hinj hi c (hl c (by simp))
    rw [State.inits, Attrs.inits, h1, Res.ok_bind]
    generalize σ.init c = r at h2 ⊢
    obtain ⟨σ', o⟩ := r
    cases o with
    | threw => exact ⟨s1, rfl, h2⟩
    | returned => exact ih (fun c hc => hl c (by simp [hc])) h2

/-- Initialising other dimensions does not give attributes to this one. -/
private theorem inits_other (l : List (Call δ S P)) (d : δ) (hl : ∀ c ∈ l, c.dim ≠ d) (σ : Attrs δ S P) :
    (Attrs.inits l σ).1 d = σ d := by
  induction l generalizing σ with
  | nil => rfl
  | cons c l ih =>
    have h1 : (σ.init c).1 d = σ d := by
      rw [Attrs.init]
      cases σ c.dim with
      | some _ => rfl
      | none =>
        cases c.attrs with
        | none => rfl
        | some a => exact Function.update_of_ne (Ne.symm (hl c (by simp))) _ _
    rw [Attrs.inits]
    generalize σ.init c = r at h1 ⊢
    obtain ⟨σ', o⟩ := r
    cases o with
    | threw => exact h1
    | returned => rw [← h1]; exact ih (fun c hc => hl c (by simp [hc])) σ'

private theorem initWith_inv {name : δ → κ} (hinj : ∀ x y, name x = name y → x = y) (l : List (Call δ S P)) (c : Call δ S P)
    (hl : ∀ x ∈ l, x.dim ≠ c.dim ∧ x.copied = true) (hc : c.copied = true)
    {s : Device.State δ κ S P} {σ : Attrs δ S P} (hi : DeviceInv name true s σ) :
    ∃ s', s.initWith name l c = .ok (s', (σ.initWith l c).2) ∧ DeviceInv name true s' (σ.initWith l c).1 := by
  rw [State.initWith, Attrs.initWith]
  cases hd : σ c.dim with
  | some a =>
    have h := hi.stored c.dim
    rw [hd] at h
    obtain ⟨x, hx, _⟩ := h
    rw [hx]
    exact ⟨s, rfl, hi⟩
  | none =>
    rw [(stored_none (hi.stored c.dim)).2 hd]
    obtain ⟨s1, h1, h2⟩ := inits_inv hinj l (fun x hx => (hl x hx).2) hi
    have h3 := inits_other l c.dim (fun x hx => (hl x hx).1) σ
    rw [h1]
    simp only [Res.ok_bind]
    generalize Attrs.inits l σ = r at h2 h3 ⊢
    obtain ⟨σ', o⟩ := r
    cases o with
    | threw => exact ⟨s1, rfl, h2⟩
    | returned => exact construct_inv hinj h2 c hc (by rw [← hd]; exact h3)

private theorem release_ok {m : Nat → Option P} {i : Image S} (h : ∀ n, i.ptr = some n → (m n).isSome) :
    ∃ m', release m i = .ok m' ∧ ∀ k, m' k = if i.ptr = some k then none else m k := by
  rw [release]
  cases hp : i.ptr with
  | none => exact ⟨m, rfl, by simp⟩
  | some n =>
    have := h n hp
    cases hm : m n with
    | none => rw [hm] at this; cases this
    | some p =>
      simp only [hm]
      refine ⟨_, rfl, ?_⟩
      intro k
      by_cases h : k = n
      · simp [h]
      · simp [h, Ne.symm h]

omit [DecidableEq κ] in
/-- One resetter. -/
private theorem reset_inv {s : Device.State δ κ S P} (ho : Owned s) (d : δ) :
    ∃ s', s.reset d = .ok s' ∧ Owned s' ∧ (∀ y, s'.dual y = if y = d then none else s.dual y) ∧ s'.store = s.store ∧ s'.symbol = s.symbol := by
  rw [State.reset]
  cases hx : s.dual d with
  | none =>
    refine ⟨s, rfl, ho, ?_, rfl, rfl⟩
    intro y
    by_cases h : y = d <;> simp [h, hx]
  | some x =>
    obtain ⟨m1, e1, f1⟩ := release_ok (m := s.devMem) (i := x.mirror) (fun n hn => (ho.dev n).2 ⟨d, x, hx, hn⟩)
    obtain ⟨m2, e2, f2⟩ := release_ok (m := s.hostMem) (i := x.host) (fun n hn => (ho.host n).2 ⟨d, x, hx, hn⟩)
    simp only [e1, e2, Res.ok_bind, Res.pure_eq]
    refine ⟨_, rfl, ?_, fun _ => rfl, rfl, rfl⟩
    refine ⟨fun n => ?_, fun n => ?_, ?_, ?_, ?_⟩
    · show (m2 n).isSome ↔ _
      rw [f2]
      constructor
      · intro h
        by_cases hn : x.host.ptr = some n
        · rw [if_pos hn] at h; cases h
        · rw [if_neg hn, ho.host] at h
          obtain ⟨d', y, h1, h2⟩ := h
          refine ⟨d', y, ?_, h2⟩
          have : d' ≠ d := by
            rintro rfl
            rw [hx] at h1; cases h1; exact hn h2
          simp [this, h1]
      · rintro ⟨d', y, h1, h2⟩
        by_cases h : d' = d
        · simp [h] at h1
        · simp [h] at h1
          have hne : x.host.ptr ≠ some n := fun hh => h (ho.hostOne d' d y x n h1 hx h2 hh)
          rw [if_neg hne]
          exact (ho.host n).2 ⟨d', y, h1, h2⟩
    · show (m1 n).isSome ↔ _
      rw [f1]
      constructor
      · intro h
        by_cases hn : x.mirror.ptr = some n
        · rw [if_pos hn] at h; cases h
        · rw [if_neg hn, ho.dev] at h
          obtain ⟨d', y, h1, h2⟩ := h
          refine ⟨d', y, ?_, h2⟩
          have : d' ≠ d := by
            rintro rfl
            rw [hx] at h1; cases h1; exact hn h2
          simp [this, h1]
      · rintro ⟨d', y, h1, h2⟩
        by_cases h : d' = d
        · simp [h] at h1
        · simp [h] at h1
          have hne : x.mirror.ptr ≠ some n := fun hh => h (ho.devOne d' d y x n h1 hx h2 hh)
          rw [if_neg hne]
          exact (ho.dev n).2 ⟨d', y, h1, h2⟩
    · intro a b y y' n h1 h2 h3 h4
      by_cases ha : a = d
      · simp [ha] at h1
      · by_cases hb : b = d
        · simp [hb] at h2
        · simp [ha] at h1; simp [hb] at h2
          exact ho.hostOne a b y y' n h1 h2 h3 h4
    · intro a b y y' n h1 h2 h3 h4
      by_cases ha : a = d
      · simp [ha] at h1
      · by_cases hb : b = d
        · simp [hb] at h2
        · simp [ha] at h1; simp [hb] at h2
          exact ho.devOne a b y y' n h1 h2 h3 h4
    · intro n hn
      have := ho.fresh n hn
      refine ⟨?_, ?_⟩
      · show m2 n = none
        rw [f2]; split <;> simp [this.1]
      · show m1 n = none
        rw [f1]; split <;> simp [this.2]

omit [DecidableEq κ] in
/-- All of them. -/
private theorem resets_inv (m : List (κ × δ)) {s : Device.State δ κ S P} (ho : Owned s) :
    ∃ s', m.foldlM (fun s p => Device.State.reset s p.2) s = Res.ok s' ∧ Owned s' ∧
      (∀ y, s'.dual y = if y ∈ m.map Prod.snd then none else s.dual y) ∧ s'.symbol = s.symbol := by
  induction m generalizing s with
  | nil => exact ⟨s, rfl, ho, by simp, rfl⟩
  | cons p m ih =>
    obtain ⟨s1, h1, h2, h3, _, h5⟩ := reset_inv ho p.2
    obtain ⟨s2, g1, g2, g3, g4⟩ := ih h2
    refine ⟨s2, by rw [List.foldlM_cons, h1, Res.ok_bind, g1], g2, ?_, by rw [g4, h5]⟩
    intro y
    rw [g3, h3]
    by_cases hy : y = p.2
    · simp [hy]
    · simp only [hy, if_false, List.map_cons, List.mem_cons, false_or]

/-- A whole history. -/
private theorem device_run {name : δ → κ} (hinj : ∀ x y, name x = name y → x = y) (h : List (Device.Op δ S P)) (b : Bool)
    (hw : DeviceScoped b h) {s : Device.State δ κ S P} {σ : Attrs δ S P} (hi : DeviceInv name b s σ) :
    ∃ s', s.run name h = .ok s' ∧ DeviceInv name (deviceAlive b h) s' (attrsAfter h σ) := by
  induction h generalizing b s σ with
  | nil => exact ⟨s, rfl, hi⟩
  | cons op h ih =>
    have hrun : ∀ s1 o, s.step name op = .ok (s1, o) → s.run name (op :: h) = s1.run name h := by
      intro s1 o ho
      rw [State.run, List.foldlM_cons, ho]
      rfl
    cases op with
    | guard =>
      cases b with
      | true => exact hw.elim
      | false =>
        obtain ⟨h1, h2⟩ := hi.closed rfl
        rw [hrun _ _ rfl]
        have hdn : ∀ d, s.dual d = none := fun d => (stored_none (hi.stored d)).2 (h2 d)
        refine ih true hw ⟨⟨hi.owned.host, hi.owned.dev, hi.owned.hostOne, hi.owned.devOne, hi.owned.fresh⟩, hdn, by simp, fun _ => ?_⟩
        exact ⟨[], rfl, by simp, by simp, fun d => by simp [hdn]⟩
    | unguard =>
      cases b with
      | false => exact hw.elim
      | true =>
        obtain ⟨m, m1, m2, m3, m4⟩ := hi.opened rfl
        obtain ⟨s1, g1, g2, g3, g4⟩ := resets_inv m hi.owned
        have hstep : s.step name (.unguard) = .ok ({ s1 with store := none }, .returned) := by
          rw [State.step, State.guardDtor, m1]
          simp only [g1, Res.ok_bind, Res.pure_eq]
        rw [hrun _ _ hstep]
        have hdn : ∀ d, s1.dual d = none := by
          intro d
          rw [g3]
          split
          · rfl
          · rename_i hd
            rw [m4 d] at hd
            simpa using hd
        exact ih false hw ⟨⟨g2.host, g2.dev, g2.hostOne, g2.devOne, g2.fresh⟩, hdn, fun _ => ⟨rfl, fun _ => rfl⟩, by simp⟩
    | init l c =>
      cases b with
      | false => exact hw.elim
      | true =>
        obtain ⟨w1, w2, w3⟩ := hw
        obtain ⟨s1, g1, g2⟩ := initWith_inv hinj l c w1 w2 hi
        rw [hrun s1 _ g1]
        exact ih true w3 g2

omit [DecidableEq δ] [DecidableEq κ] in
private theorem start_inv (name : δ → κ) : DeviceInv name false (State.start : Device.State δ κ S P) fun _ => none :=
  ⟨⟨by simp [State.start], by simp [State.start], by simp [State.start], by simp [State.start], by simp [State.start]⟩,
    fun _ => rfl, fun _ => ⟨rfl, fun _ => rfl⟩, by simp⟩

/-! ## The properties -/

/-- **C68, kernels see the attributes of the host.**  After every well-scoped history in which the copies to the device succeed,
a dimension that is initialised has the same attributes on the host and on the device, those its initialisation was given, with
their buffers alive in both memories; a dimension that is not initialised is refused on the host.  Missing with respect to the
claim: what a kernel reads from a dimension that is not initialised (`C68_never_initialised`, `C68_after_guard`,
`C68_stale_scalars`), failures of the copy (`C68_copy_fails`), and histories outside of `DeviceScoped`
(`C25_nested_guards`, `C25_without_guard`). -/
theorem C68_same_attributes_partial {name : δ → κ} (hinj : ∀ x y, name x = name y → x = y) (zero : S) (h : List (Device.Op δ S P))
    (hw : DeviceScoped false h) :
    ∃ s, State.run name h State.start = .ok s ∧
      (∀ d a, attrsAfter h (fun _ => none) d = some a → s.readHost d = .ok a ∧ s.readDevice zero d = .ok a) ∧
      ∀ d, attrsAfter h (fun _ => none) d = none → s.readHost d = .abort := by
  obtain ⟨s, s1, s2⟩ := device_run hinj h false hw (start_inv name)
  refine ⟨s, s1, ?_, ?_⟩
  · intro d a ha
    have := s2.stored d
    rw [ha] at this
    obtain ⟨x, h1, h2, h3, h4⟩ := this
    rw [State.readHost, h1, State.readDevice, h2]
    exact ⟨h3, h4⟩
  · intro d hd
    have := s2.stored d
    rw [hd] at this
    rw [State.readHost, show s.dual d = none from this]

/-- **C68, calls.**  In every reachable state under a guard an initialisation returns or throws as specified: it throws exactly
when the dimension is initialised, when one of the initialisations its constructor makes throws, or when its attributes cannot be
built; and what is readable afterwards on the host and on the device is as specified. -/
theorem C68_init {name : δ → κ} (hinj : ∀ x y, name x = name y → x = y) (zero : S) (h : List (Device.Op δ S P))
    (hw : DeviceScoped false h) (ha : deviceAlive false h = true) (l : List (Call δ S P)) (c : Call δ S P)
    (hl : ∀ x ∈ l, x.dim ≠ c.dim ∧ x.copied = true) (hc : c.copied = true) :
    ∃ s s' , State.run name h State.start = .ok s ∧
      s.step name (.init l c) = .ok (s', ((attrsAfter h fun _ => none).initWith l c).2) ∧
      ∀ d a, ((attrsAfter h fun _ => none).initWith l c).1 d = some a → s'.readHost d = .ok a ∧ s'.readDevice zero d = .ok a := by
  obtain ⟨s, s1, s2⟩ := device_run hinj h false hw (start_inv name)
  rw [ha] at s2
  obtain ⟨s', g1, g2⟩ := initWith_inv hinj l c hl hc s2
  refine ⟨s, s', s1, g1, ?_⟩
  intro d a ha
  have := g2.stored d
  rw [ha] at this
  obtain ⟨x, h1, h2, h3, h4⟩ := this
  rw [State.readHost, h1, State.readDevice, h2]
  exact ⟨h3, h4⟩

/-- **C68, buffers.**  After every such history the live buffers, on the host and on the device, are those of the initialised
dimensions with points, no two of which share one; none is left after the end of the guard and none is released twice (which
would be undefined). -/
theorem C68_buffers {name : δ → κ} (hinj : ∀ x y, name x = name y → x = y) (h : List (Device.Op δ S P)) (hw : DeviceScoped false h) :
    ∃ s, State.run name h State.start = .ok s ∧
      (deviceAlive false h = false → (∀ n, s.hostMem n = none) ∧ ∀ n, s.devMem n = none) ∧
      (∃ f : δ → Option (Nat × Nat),
        (∀ d, (f d).isSome ↔ ∃ x p, attrsAfter h (fun _ => none) d = some (x, some p)) ∧
        (∀ d d' n n', f d = some n → f d' = some n' → (n.1 = n'.1 ∨ n.2 = n'.2) → d = d') ∧
        (∀ n, (s.hostMem n).isSome ↔ ∃ d, (f d).map Prod.fst = some n) ∧
        ∀ n, (s.devMem n).isSome ↔ ∃ d, (f d).map Prod.snd = some n) := by
  obtain ⟨s, s1, s2⟩ := device_run hinj h false hw (start_inv name)
  -- both buffers or none
  have both : ∀ d x, s.dual d = some x → (x.host.ptr = none ∧ x.mirror.ptr = none ∧ ∀ y p, attrsAfter h (fun _ => none) d ≠ some (y, some p)) ∨
      ∃ n n', x.host.ptr = some n ∧ x.mirror.ptr = some n' ∧ ∃ y p, attrsAfter h (fun _ => none) d = some (y, some p) := by
    intro d x hx
    have hst := s2.stored d
    cases ha : attrsAfter h (fun _ => none) d with
    | none => rw [ha] at hst; rw [show s.dual d = none from hst] at hx; cases hx
    | some a =>
      rw [ha] at hst
      obtain ⟨x', h1, h2, h3, h4⟩ := hst
      rw [hx] at h1; cases h1
      rcases load_ptr h3 with ⟨p1, p2⟩ | ⟨n, p, p1, p2, p3⟩ <;> rcases load_ptr h4 with ⟨q1, q2⟩ | ⟨n', q, q1, q2, q3⟩
      · exact .inl ⟨p1, q1, by rw [p2]; simp⟩
      · rw [p2] at q3; simp at q3
      · rw [p3] at q2; simp at q2
      · exact .inr ⟨n, n', p1, q1, x.host.scalars, p, by rw [p3]⟩
  refine ⟨s, s1, ?_, ?_⟩
  · intro hb
    have hdn : ∀ d, s.dual d = none := fun d => (stored_none (s2.stored d)).2 ((s2.closed hb).2 d)
    refine ⟨fun n => ?_, fun n => ?_⟩
    · have := s2.owned.host n
      simp only [hdn, reduceCtorEq, false_and, exists_false, iff_false] at this
      simpa using this
    · have := s2.owned.dev n
      simp only [hdn, reduceCtorEq, false_and, exists_false, iff_false] at this
      simpa using this
  · refine ⟨fun d => (s.dual d).bind fun x => x.host.ptr.bind fun n => x.mirror.ptr.map fun n' => (n, n'), ?_, ?_, ?_, ?_⟩
    · intro d
      cases hx : s.dual d with
      | none =>
        have := (stored_none (s2.stored d)).1 hx
        simp [this, hx]
      | some x =>
        rcases both d x hx with ⟨h1, h2, h3⟩ | ⟨n, n', h1, h2, y, p, h3⟩
        · simp only [hx, Option.bind_some, h1, Option.bind_none, Option.isSome_none, Bool.false_eq_true, false_iff, not_exists]
          exact h3
        · simp [hx, h1, h2, h3]
    · intro d d' n n' hn hn' he
      simp only [Option.bind_eq_some_iff, Option.map_eq_some_iff] at hn hn'
      obtain ⟨x, h1, a, h2, b, h3, rfl⟩ := hn
      obtain ⟨x', g1, a', g2, b', g3, rfl⟩ := hn'
      rcases he with he | he
      · exact s2.owned.hostOne d d' x x' a h1 g1 h2 (by rw [g2]; exact congrArg some he.symm)
      · exact s2.owned.devOne d d' x x' b h1 g1 h3 (by rw [g3]; exact congrArg some he.symm)
    · intro n
      rw [s2.owned.host]
      refine exists_congr fun d => ?_
      constructor
      · rintro ⟨x, h1, h2⟩
        rcases both d x h1 with ⟨k, _⟩ | ⟨a, b, k1, k2, _⟩
        · rw [k] at h2; cases h2
        · rw [k1] at h2; cases h2
          simp [h1, k1, k2]
      · intro hh
        simp only [Option.map_eq_some_iff, Option.bind_eq_some_iff] at hh
        obtain ⟨r, ⟨x, h1, a, h2, b, h3, rfl⟩, rfl⟩ := hh
        exact ⟨x, h1, h2⟩
    · intro n
      rw [s2.owned.dev]
      refine exists_congr fun d => ?_
      constructor
      · rintro ⟨x, h1, h2⟩
        rcases both d x h1 with ⟨_, k, _⟩ | ⟨a, b, k1, k2, _⟩
        · rw [k] at h2; cases h2
        · rw [k2] at h2; cases h2
          simp [h1, k1, k2]
      · intro hh
        simp only [Option.map_eq_some_iff, Option.bind_eq_some_iff] at hh
        obtain ⟨r, ⟨x, h1, a, h2, b, h3, rfl⟩, rfl⟩ := hh
        exact ⟨x, h1, h3⟩

/-! ## Disagreements -/

/-- **Disagreement, never initialised.**  A kernel that reads a dimension nobody initialised gets attributes made of zeros where
the host is stopped by an assertion. -/
theorem C68_never_initialised : ∃ s : Device.State Char Char Nat Nat, State.run id [.guard] State.start = .ok s ∧
    s.readHost 'x' = .abort ∧ s.readDevice 0 'x' = .ok (0, none) := by
  exact ⟨_, rfl, rfl, rfl⟩

/-- **Disagreement, after the guard.**  The device variable is not cleared: a kernel that reads the points of a dimension after
the end of the guard uses a released buffer, where the host is stopped by an assertion. -/
theorem C68_after_guard : ∃ s : Device.State Char Char Nat Nat,
    State.run id [.guard, .init [] ⟨'x', some (7, some 5), true⟩, .unguard] State.start = .ok s ∧
    s.readHost 'x' = .abort ∧ s.readDevice 0 'x' = .ub := by
  exact ⟨_, rfl, rfl, rfl⟩

/-- **Disagreement, stale scalars.**  For attributes without points the kernel reads those of the previous guard. -/
theorem C68_stale_scalars : ∃ s : Device.State Char Char Nat Nat,
    State.run id [.guard, .init [] ⟨'x', some (7, none), true⟩, .unguard, .guard] State.start = .ok s ∧
    s.readHost 'x' = .abort ∧ s.readDevice 0 'x' = .ok (7, none) := by
  exact ⟨_, rfl, rfl, rfl⟩

/-- **Disagreement, failed copy.**  When the copy to the device fails the initialisation throws, but the dimension is initialised:
the host reads the new attributes, kernels read something else, and the initialisation cannot be tried again. -/
theorem C68_copy_fails : ∃ s s' : Device.State Char Char Nat Nat,
    State.run id [.guard] State.start = .ok s ∧
    s.step id (.init [] ⟨'x', some (7, none), false⟩) = .ok (s', .threw) ∧
    s'.readHost 'x' = .ok (7, none) ∧ s'.readDevice 0 'x' = .ok (0, none) ∧
    s'.step id (.init [] ⟨'x', some (7, none), true⟩) = .ok (s', .threw) := by
  exact ⟨_, _, rfl, rfl, rfl, rfl, rfl⟩

/-- **Disagreement, failed copy of the knots.**  The failure of the copy of the knots makes the initialisation of the B-splines
throw, and they cannot be initialised any more under this guard: their knots are. -/
theorem C68_copy_of_knots_fails : ∃ s s' : Device.State Char Char Nat Nat,
    State.run id [.guard] State.start = .ok s ∧
    s.step id (.init [⟨'k', some (1, some 5), false⟩] ⟨'b', some (2, none), true⟩) = .ok (s', .threw) ∧
    s'.readHost 'k' = .ok (1, some 5) ∧ s'.readHost 'b' = .abort ∧
    s'.step id (.init [⟨'k', some (1, some 5), true⟩] ⟨'b', some (2, none), true⟩) = .ok (s', .threw) := by
  exact ⟨_, _, rfl, rfl, rfl, rfl, rfl⟩

/-! Non-vacuity. -/
example : DeviceScoped false ([.guard, .init [⟨'k', some (1, some 5), true⟩] ⟨'b', some (2, none), true⟩,
    .init [] ⟨'x', some (3, some 6), true⟩, .init [] ⟨'x', some (4, some 7), true⟩, .unguard, .guard,
    .init [] ⟨'x', some (4, some 7), true⟩] : List (Device.Op Char Nat Nat)) := by
  simp [DeviceScoped]
example : attrsAfter ([.guard, .init [⟨'k', some (1, some 5), true⟩] ⟨'b', some (2, none), true⟩,
    .init [] ⟨'x', some (3, some 6), true⟩, .init [] ⟨'x', some (4, some 7), true⟩] : List (Device.Op Char Nat Nat)) (fun _ => none) 'x'
    = some (3, some 6) := by decide

end DDC.Props
