import Mathlib.Order.Defs.LinearOrder
import Mathlib.Order.Basic
import Mathlib.Order.Nat
import Verif.Model.CexaTuple
import Verif.Lemmas.Tuple

/-!
# C56  `cexa::tuple`: access, assignment, comparison, concatenation

The specification sees a tuple as the list of its components.
-/

namespace DDC.Spec

/-- The components of a tuple, in order. -/
def comps {α : Type} : Cexa.Store α → List α
  | .nil => []
  | .cons v r => v :: comps r

end DDC.Spec

namespace DDC.Props

open DDC.Cexa DDC.Spec

variable {α : Type}

@[simp] theorem comps_ofArgs (l : List α) : comps (Store.ofArgs l) = l := by
  induction l with
  | nil => rfl
  | cons a l ih => simp [Store.ofArgs, comps, ih]

theorem ofArgs_comps (s : Store α) : Store.ofArgs (comps s) = s := by
  induction s with
  | nil => rfl
  | cons a s ih => simp [Store.ofArgs, comps, ih]

theorem comps_inj {s t : Store α} (h : comps s = comps t) : s = t := by
  rw [← ofArgs_comps s, h, ofArgs_comps]

theorem size_comps (s : Store α) : s.size = (comps s).length := by
  induction s with
  | nil => rfl
  | cons a s ih => simp [Store.size, comps, ih]

theorem get_comps (s : Store α) (i : Nat) :
    s.get i = match (comps s)[i]? with | some v => .ok v | none => .ill := by
  induction s generalizing i with
  | nil => rfl
  | cons a s ih =>
    cases i with
    | zero => rfl
    | succ i => simp [Store.get, comps, ih]

/-- A tuple made of `l` has the components `l`: `get<I>` is the `I`-th argument and does not
compile beyond the size. -/
theorem C56_get (l : List α) :
    (Store.ofArgs l).size = l.length ∧
    (∀ i, (h : i < l.length) → (Store.ofArgs l).get i = .ok l[i]) ∧
    ∀ i, l.length ≤ i → (Store.ofArgs l).get i = .ill := by
  refine ⟨by rw [size_comps, comps_ofArgs], ?_, ?_⟩
  · intro i h; rw [get_comps, comps_ofArgs, List.getElem?_eq_getElem h]
  · intro i h; rw [get_comps, comps_ofArgs, List.getElem?_eq_none h]

/-- Writing through `get<I>` changes component `I` and no other. -/
theorem C56_set (s : Store α) (i : Nat) (x : α) (h : i < s.size) :
    ∃ t, s.set i x = .ok t ∧ comps t = (comps s).set i x ∧ t.size = s.size ∧ t.get i = .ok x ∧
      ∀ j, j ≠ i → t.get j = s.get j := by
  have key : ∃ t, s.set i x = .ok t ∧ comps t = (comps s).set i x := by
    induction s generalizing i with
    | nil => simp [Store.size] at h
    | cons a s ih =>
      cases i with
      | zero => exact ⟨.cons x s, by simp [Store.set], by simp [comps]⟩
      | succ i =>
        obtain ⟨t, h1, h2⟩ := ih i (by simpa [Store.size] using h)
        exact ⟨.cons a t, by simp [Store.set, h1], by simp [comps, h2]⟩
  obtain ⟨t, h1, h2⟩ := key
  rw [size_comps] at h
  refine ⟨t, h1, h2, by rw [size_comps, size_comps, h2, List.length_set], ?_, ?_⟩
  · rw [get_comps, h2, List.getElem?_set_self h]
  · intro j hj
    rw [get_comps, get_comps, h2, List.getElem?_set_ne (Ne.symm hj)]

/-- `get<T>` is the first component of type `T`; it does not compile if there is none. -/
theorem C56_get_type {T : Type} [DecidableEq T] (t : T) (ts : List T) (s : Store α)
    (hl : ts.length = s.size) :
    (∀ i v, s.get i = .ok v → ts[i]? = some t → (∀ j < i, ts[j]? ≠ some t) → Store.getType t ts s = .ok v) ∧
    (t ∉ ts → Store.getType t ts s = .ill) := by
  induction s generalizing ts with
  | nil =>
    constructor
    · intro i v h; simp [Store.get] at h
    · intro _; cases ts <;> rfl
  | cons a s ih =>
    cases ts with
    | nil => simp [Store.size] at hl
    | cons t' ts =>
      obtain ⟨h1, h2⟩ := ih ts (by simpa [Store.size] using hl)
      constructor
      · intro i v hg hi hj
        cases i with
        | zero =>
          simp only [List.getElem?_cons_zero, Option.some.injEq] at hi
          subst hi
          simpa [Store.get, Store.getType] using hg
        | succ i =>
          have hne : t ≠ t' := by
            intro h; subst h; exact hj 0 (by omega) rfl
          simp only [Store.getType, hne, if_false]
          refine h1 i v (by simpa [Store.get] using hg) (by simpa using hi) ?_
          intro j hji
          have := hj (j + 1) (by omega)
          simpa using this
      · intro h
        simp only [List.mem_cons, not_or] at h
        simp only [Store.getType, h.1, if_false]
        exact h2 h.2

/-- Assignment of tuples of the same size assigns each component; other sizes do not compile. -/
theorem C56_assign (f : α → α → α) (s t : Store α) :
    (s.size = t.size → ∃ r, Store.assign f s t = .ok r ∧ comps r = List.zipWith f (comps s) (comps t)) ∧
    (s.size ≠ t.size → Store.assign f s t = .ill) := by
  induction s generalizing t with
  | nil => cases t with
    | nil => exact ⟨fun _ => ⟨.nil, rfl, rfl⟩, fun h => absurd rfl h⟩
    | cons b t => exact ⟨fun h => by simp [Store.size] at h, fun _ => rfl⟩
  | cons a s ih => cases t with
    | nil => exact ⟨fun h => by simp [Store.size] at h, fun _ => rfl⟩
    | cons b t =>
      obtain ⟨h1, h2⟩ := ih t
      constructor
      · intro h
        obtain ⟨r, g1, g2⟩ := h1 (by simpa [Store.size] using h)
        exact ⟨.cons (f a b) r, by simp [Store.assign, g1], by simp [comps, g2]⟩
      · intro h
        simp [Store.assign, h2 (by simpa [Store.size] using h)]

/-- Copy assignment: the target becomes equal to the source. -/
theorem C56_copy (s t : Store α) (h : s.size = t.size) : Store.assign (fun _ w => w) s t = .ok t := by
  obtain ⟨r, h1, h2⟩ := (C56_assign (fun _ w => w) s t).1 h
  rw [h1]
  congr 1
  apply comps_inj
  rw [h2]
  apply List.ext_getElem?
  intro i
  rw [size_comps, size_comps] at h
  rw [List.getElem?_zipWith]
  by_cases hi : i < (comps t).length
  · rw [List.getElem?_eq_getElem hi, List.getElem?_eq_getElem (by omega)]
  · rw [List.getElem?_eq_none (by omega), List.getElem?_eq_none (by omega)]

/-- `swap` exchanges the two tuples. -/
theorem C56_swap (s t : Store α) (h : s.size = t.size) : Store.swap s t = .ok (t, s) := by
  induction s generalizing t with
  | nil => cases t with
    | nil => rfl
    | cons b t => simp [Store.size] at h
  | cons a s ih => cases t with
    | nil => simp [Store.size] at h
    | cons b t => simp [Store.swap, ih t (by simpa [Store.size] using h)]

theorem mapM_get (l : List α) (f : Nat → Res α) (h : ∀ i (hi : i < l.length), f i = .ok l[i]) :
    (List.range l.length).mapM f = .ok l := by
  induction l generalizing f with
  | nil => rfl
  | cons a l ih =>
    rw [List.length_cons, List.range_succ_eq_map, List.mapM_cons, List.mapM_map]
    rw [h 0 (by simp), Res.ok_bind, ih (f ∘ Nat.succ) (fun i hi => by
      have := h (i + 1) (by simpa using hi)
      simpa using this)]
    rfl

/-- `apply` and `make_from_tuple` call with all components, in order. -/
theorem C56_apply (s : Store α) : s.applyArgs = .ok (comps s) := by
  rw [Store.applyArgs, size_comps]
  refine mapM_get _ _ fun i hi => ?_
  rw [get_comps, List.getElem?_eq_getElem hi]

/-! ## Comparisons -/

/-- Comparison of one component by the operators that `operator<=>` uses. -/
def compareOne (c : Comp α) (x y : α) : Option Ord3 :=
  match c.three, c.lt, c.gt with
  | some (_, f), _, _ => some (f x y)
  | none, some lt, some gt => some (if lt x y then .less else if gt x y then .greater else .equiv)
  | none, _, _ => none

/-- The result of `<=>` is decided by the first component that is not equivalent, and is
equivalent if there is none. -/
theorem C56_compare (cs : List (Comp α)) (a b : Store α) (ha : a.size = cs.length) (hb : b.size = cs.length)
    (k : Cat) (hk : category cs = .ok k) :
    ∃ r, Cexa.compare cs a b = .ok r ∧
      (r = .equiv ↔ ∀ (i : Nat) (c : Comp α) (x y : α), cs[i]? = some c → (comps a)[i]? = some x → (comps b)[i]? = some y →
        compareOne c x y = some .equiv) ∧
      (r ≠ .equiv ↔ ∃ (i : Nat) (c : Comp α) (x y : α), cs[i]? = some c ∧ (comps a)[i]? = some x ∧ (comps b)[i]? = some y ∧
        compareOne c x y = some r ∧ r ≠ .equiv ∧
        ∀ j < i, ∀ (c' : Comp α) (x' y' : α), cs[j]? = some c' → (comps a)[j]? = some x' → (comps b)[j]? = some y' →
          compareOne c' x' y' = some .equiv) := by
  have key : ∃ r, compareBody cs a b = .ok r ∧
      ((r = .equiv ∧ ∀ (i : Nat) (c : Comp α) (x y : α), cs[i]? = some c → (comps a)[i]? = some x → (comps b)[i]? = some y →
        compareOne c x y = some .equiv) ∨
       (r ≠ .equiv ∧ ∃ (i : Nat) (c : Comp α) (x y : α), cs[i]? = some c ∧ (comps a)[i]? = some x ∧ (comps b)[i]? = some y ∧
        compareOne c x y = some r ∧
        ∀ j < i, ∀ (c' : Comp α) (x' y' : α), cs[j]? = some c' → (comps a)[j]? = some x' → (comps b)[j]? = some y' →
          compareOne c' x' y' = some .equiv)) := by
    induction cs generalizing a b k with
    | nil =>
      cases a with
      | cons _ _ => simp [Store.size] at ha
      | nil => cases b with
        | cons _ _ => simp [Store.size] at hb
        | nil => exact ⟨.equiv, rfl, Or.inl ⟨rfl, by simp⟩⟩
    | cons c cs ih =>
      cases a with
      | nil => simp [Store.size] at ha
      | cons x a => cases b with
        | nil => simp [Store.size] at hb
        | cons y b =>
          simp only [category] at hk
          obtain ⟨k', hk', hk⟩ := Res.bind_eq_ok.1 hk
          obtain ⟨r, g1, g2⟩ := ih a b (by simpa [Store.size] using ha) (by simpa [Store.size] using hb) k' hk'
          have hone : ∃ o, compareOne c x y = some o ∧
              compareBody (c :: cs) (.cons x a) (.cons y b)
                = if o ≠ .equiv then .ok o else compareBody cs a b := by
            rcases hc : c.three with _ | ⟨k'', f⟩
            · rw [hc] at hk
              obtain ⟨_, _, hk⟩ := Res.bind_eq_ok.1 hk
              rcases hl : c.lt with _ | lt
              · rw [hl] at hk; cases hk
              · rcases hg : c.gt with _ | gt
                · rw [hl, hg] at hk; cases hk
                · refine ⟨if lt x y then .less else if gt x y then .greater else .equiv,
                    by simp only [compareOne, hc, hl, hg], ?_⟩
                  simp only [compareBody, hc, hl, hg]
                  by_cases h1 : lt x y = true
                  · simp [h1]
                  · by_cases h2 : gt x y = true <;> simp [h1, h2]
            · exact ⟨f x y, by simp only [compareOne, hc], by simp only [compareBody, hc]⟩
          obtain ⟨o, ho1, ho2⟩ := hone
          by_cases ho : o = .equiv
          · subst ho
            refine ⟨r, by rw [ho2]; simpa using g1, ?_⟩
            have step : ∀ i c' x' y', (c :: cs)[i + 1]? = some c' → (comps (.cons x a))[i + 1]? = some x' →
                (comps (.cons y b))[i + 1]? = some y' → cs[i]? = some c' ∧ (comps a)[i]? = some x' ∧
                  (comps b)[i]? = some y' := by
              intro i c' x' y' h1 h2 h3
              exact ⟨by simpa using h1, by simpa [comps] using h2, by simpa [comps] using h3⟩
            have hzero : ∀ c' x' y', (c :: cs)[0]? = some c' → (comps (.cons x a))[0]? = some x' →
                (comps (.cons y b))[0]? = some y' → compareOne c' x' y' = some .equiv := by
              intro c' x' y' h1 h2 h3
              simp only [List.getElem?_cons_zero, comps, Option.some.injEq] at h1 h2 h3
              subst h1 h2 h3; exact ho1
            rcases g2 with ⟨g2, g3⟩ | ⟨g2, i, c', x', y', e1, e2, e3, e4, e5⟩
            · refine Or.inl ⟨g2, ?_⟩
              intro i c' x' y' h1 h2 h3
              cases i with
              | zero => exact hzero c' x' y' h1 h2 h3
              | succ i =>
                obtain ⟨h1, h2, h3⟩ := step i c' x' y' h1 h2 h3
                exact g3 i c' x' y' h1 h2 h3
            · refine Or.inr ⟨g2, i + 1, c', x', y', by simpa using e1, by simpa [comps] using e2,
                by simpa [comps] using e3, e4, ?_⟩
              intro j hj c'' x'' y'' h1 h2 h3
              cases j with
              | zero => exact hzero c'' x'' y'' h1 h2 h3
              | succ j =>
                obtain ⟨h1, h2, h3⟩ := step j c'' x'' y'' h1 h2 h3
                exact e5 j (by omega) c'' x'' y'' h1 h2 h3
          · refine ⟨o, by rw [ho2]; simp [ho], Or.inr ⟨ho, 0, c, x, y, rfl, rfl, rfl, ho1, ?_⟩⟩
            intro j hj; omega
  obtain ⟨r, h1, h2⟩ := key
  refine ⟨r, by simp [Cexa.compare, hk, h1], ?_, ?_⟩
  · rcases h2 with ⟨h2, h3⟩ | ⟨h2, i, c, x, y, e1, e2, e3, e4, e5⟩
    · exact ⟨fun _ => h3, fun _ => h2⟩
    · constructor
      · intro h; exact absurd h h2
      · intro h
        rw [h i c x y e1 e2 e3] at e4
        exact (Option.some.inj e4).symm
  · rcases h2 with ⟨h2, h3⟩ | ⟨h2, i, c, x, y, e1, e2, e3, e4, e5⟩
    · constructor
      · intro h; exact absurd h2 h
      · rintro ⟨i, c, x, y, e1, e2, e3, e4, e5, _⟩; exact e5
    · exact ⟨fun h => ⟨i, c, x, y, e1, e2, e3, e4, h, e5⟩, fun _ => h2⟩

/-- The operators of a component type agree with a linear order. -/
structure Faithful [LinearOrder α] (c : Comp α) : Prop where
  three : ∀ k f, c.three = some (k, f) → ∀ x y, f x y = if x < y then .less else if y < x then .greater else .equiv
  lt : ∀ f, c.lt = some f → ∀ x y, f x y = decide (x < y)
  gt : ∀ f, c.gt = some f → ∀ x y, f x y = decide (y < x)
  eq : ∀ f, c.eq = some f → ∀ x y, f x y = decide (x = y)

/-- On linearly ordered components the comparison of tuples is the lexicographic order and
`==` is equality of all components. -/
theorem C56_order [LinearOrder α] (cs : List (Comp α)) (hc : ∀ c ∈ cs, Faithful c) (a b : Store α)
    (ha : a.size = cs.length) (hb : b.size = cs.length) (k : Cat) (hk : category cs = .ok k) :
    Cexa.lt cs a b = .ok (decide (comps a < comps b)) ∧ Cexa.lt cs b a = .ok (decide (comps b < comps a)) ∧
    Cexa.eq cs a b = .ok (decide (comps a = comps b)) := by
  have key : ∀ cs : List (Comp α), (∀ c ∈ cs, Faithful c) → ∀ a b : Store α, a.size = cs.length →
      b.size = cs.length → ∀ k, category cs = .ok k → compareBody cs a b
        = .ok (if comps a < comps b then .less else if comps b < comps a then .greater else .equiv) := by
    intro cs
    induction cs with
    | nil =>
      intro _ a b ha hb _ _
      cases a with
      | cons _ _ => simp [Store.size] at ha
      | nil => cases b with
        | cons _ _ => simp [Store.size] at hb
        | nil => simp [compareBody, comps]
    | cons c cs ih =>
      intro hc a b ha hb k hk
      cases a with
      | nil => simp [Store.size] at ha
      | cons x a => cases b with
        | nil => simp [Store.size] at hb
        | cons y b =>
          simp only [category] at hk
          obtain ⟨k', hk', hk⟩ := Res.bind_eq_ok.1 hk
          have g1 := ih (fun c hc' => hc c (by simp [hc'])) a b (by simpa [Store.size] using ha)
            (by simpa [Store.size] using hb) k' hk'
          obtain ⟨f1, f2, f3, f4⟩ := hc c (by simp)
          have hcmp : compareBody (c :: cs) (.cons x a) (.cons y b)
              = if x < y then .ok .less else if y < x then .ok .greater else compareBody cs a b := by
            rcases hc : c.three with _ | ⟨k'', f⟩
            · rw [hc] at hk
              obtain ⟨_, _, hk⟩ := Res.bind_eq_ok.1 hk
              rcases hl : c.lt with _ | lt
              · rw [hl] at hk; cases hk
              · rcases hg : c.gt with _ | gt
                · rw [hl, hg] at hk; cases hk
                · simp only [compareBody, hc, hl, hg, f2 lt hl, f3 gt hg, decide_eq_true_eq]
            · simp only [compareBody, hc, f1 k'' f hc]
              by_cases h1 : x < y
              · simp [h1]
              · by_cases h2 : y < x <;> simp [h1, h2]
          rw [hcmp, g1]
          simp only [comps, List.cons_lt_cons_iff]
          rcases lt_trichotomy x y with h | h | h
          · simp [h]
          · subst h; simp
          · have h1 : ¬ x < y := not_lt.2 h.le
            have h2 : x ≠ y := ne_of_gt h
            have h3 : y ≠ x := ne_of_lt h
            simp [h, h1, h2, h3]
  have h1 := key cs hc a b ha hb k hk
  have h2 := key cs hc b a hb ha k hk
  have irr : ∀ l : List α, ¬ l < l := fun l => List.lt_irrefl l
  have asym : comps a < comps b → ¬ comps b < comps a := fun h h' => List.lt_asymm h h'
  refine ⟨?_, ?_, ?_⟩
  · simp only [Cexa.lt, Cexa.compare, hk, h1, Res.ok_bind]
    by_cases g1 : comps a < comps b
    · simp [g1]
    · by_cases g2 : comps b < comps a <;> simp [g1, g2]
  · simp only [Cexa.lt, Cexa.compare, hk, h2, Res.ok_bind]
    by_cases g1 : comps b < comps a
    · simp [g1]
    · by_cases g2 : comps a < comps b <;> simp [g1, g2]
  · simp only [Cexa.eq, Cexa.compare, hk, h1, Res.ok_bind]
    by_cases g1 : comps a < comps b
    · have : comps a ≠ comps b := fun h => irr _ (h ▸ g1)
      simp [g1, this]
    · by_cases g2 : comps b < comps a
      · have : comps a ≠ comps b := fun h => irr _ (h ▸ g2)
        simp [g1, g2, this]
      · have : comps a = comps b := by
          exact List.le_antisymm (as := comps a) (bs := comps b) (List.not_lt.1 g2) (List.not_lt.1 g1)
        simp [this, irr]

/-- The operators compiled by nvcc give the same answers on linearly ordered components. -/
theorem C56_nvcc [LinearOrder α] (cs : List (Comp α)) (hc : ∀ c ∈ cs, Faithful c)
    (hop : ∀ c ∈ cs, c.lt.isSome ∧ c.eq.isSome) (a b : Store α)
    (ha : a.size = cs.length) (hb : b.size = cs.length) :
    ltN cs a b = .ok (decide (comps a < comps b)) ∧ eqN cs a b = .ok (decide (comps a = comps b)) := by
  induction cs generalizing a b with
  | nil =>
    cases a with
    | cons _ _ => simp [Store.size] at ha
    | nil => cases b with
      | cons _ _ => simp [Store.size] at hb
      | nil => simp [ltN, eqN, comps]
  | cons c cs ih =>
    cases a with
    | nil => simp [Store.size] at ha
    | cons x a => cases b with
      | nil => simp [Store.size] at hb
      | cons y b =>
        obtain ⟨g1, g2⟩ := ih (fun c hc' => hc c (by simp [hc'])) (fun c hc' => hop c (by simp [hc']))
          a b (by simpa [Store.size] using ha) (by simpa [Store.size] using hb)
        obtain ⟨f1, f2, f3, f4⟩ := hc c (by simp)
        obtain ⟨o1, o2⟩ := hop c (by simp)
        obtain ⟨l, hl⟩ := Option.isSome_iff_exists.1 o1
        obtain ⟨e, he⟩ := Option.isSome_iff_exists.1 o2
        simp only [ltN, eqN, hl, he, f2 l hl, f4 e he, g1, g2, comps, List.cons_lt_cons_iff,
          decide_eq_true_eq, List.cons.injEq]
        rcases lt_trichotomy x y with h | h | h
        · have : x ≠ y := ne_of_lt h
          simp [h, this]
        · subst h; simp
        · have h1 : ¬ x < y := not_lt.2 h.le
          have h2 : x ≠ y := ne_of_gt h
          simp [h1, h2]

/-- A component type with `<` and `==` but no `<=>`, in which 1 and 2 are different and
not ordered (a partial order). -/
def partialComp : Comp Nat :=
  ⟨none, some (fun _ _ => false), some (fun _ _ => false), some (fun x y => decide (x = y))⟩

/-- `==` of tuples does not use `==` of the components: different components without an order
between them compare equal, except under nvcc. -/
theorem C56_eq_incomparable :
    Cexa.eq [partialComp] (.ofArgs [1]) (.ofArgs [2]) = .ok true ∧
    eqN [partialComp] (.ofArgs [1]) (.ofArgs [2]) = .ok false := by decide

/-- Components with `==` only cannot be compared with `==` as tuples; nvcc accepts them. -/
theorem C56_eq_needs_less (e : α → α → Bool) (x y : α) :
    Cexa.eq [⟨none, none, none, some e⟩] (.ofArgs [x]) (.ofArgs [y]) = .ill ∧
    eqN [⟨none, none, none, some e⟩] (.ofArgs [x]) (.ofArgs [y]) = .ok (e x y) := by
  constructor
  · simp [Cexa.eq, Cexa.compare, category, Res.guardIll]
  · cases h : e x y <;> simp [eqN, Store.ofArgs, h]

/-! ## Concatenation -/

theorem cartesian_eq (sizes : List Nat) (i : Nat) (s1 s2 : List Nat) :
    cartesian i s1 s2 sizes = (s1 ++ sizes.flatMap List.range,
      s2 ++ (sizes.zipIdx i).flatMap fun p => (List.range p.1).map fun _ => p.2) := by
  induction sizes generalizing i s1 s2 with
  | nil => simp [cartesian]
  | cons n sizes ih =>
    cases n with
    | zero => simp [cartesian, ih]
    | succ n => simp [cartesian, ih, List.append_assoc]

theorem zip_flatMap {β γ δ : Type} (l : List β) (f : β → List γ) (g : β → List δ)
    (h : ∀ b ∈ l, (f b).length = (g b).length) :
    List.zip (l.flatMap f) (l.flatMap g) = l.flatMap fun b => List.zip (f b) (g b) := by
  induction l with
  | nil => rfl
  | cons b l ih =>
    simp only [List.flatMap_cons]
    rw [List.zip_append (h b (by simp)), ih (fun c hc => h c (by simp [hc]))]

/-- The components a `tuple_cat` step reads and, for a non-constant argument, leaves moved from. -/
theorem cat_inner (args : List Arg) (k : Nat) (a : Arg) (hk : args[k]? = some a) (l : List (Option α))
    (n s : Nat) (hs : s + n = l.length) (m : Mem α) (acc : List (Option α))
    (hm : comps (m a.obj) = if a.const then l else List.replicate s none ++ l.drop s) :
    ∃ m', ((List.range' s n).map fun i => (i, k)).foldlM (catStep args) (m, acc)
        = .ok (m', acc ++ l.drop s) ∧
      comps (m' a.obj) = (if a.const then l else List.replicate l.length none) ∧
      ∀ o, o ≠ a.obj ∨ a.const = true → m' o = m o := by
  induction n generalizing s m acc with
  | zero =>
    refine ⟨m, ?_, ?_, fun _ _ => rfl⟩
    · have : l.drop s = [] := List.drop_eq_nil_of_le (by omega)
      simp [this]
    · have : l.drop s = [] := List.drop_eq_nil_of_le (by omega)
      have hsl : s = l.length := by omega
      rw [hm, this, List.append_nil, hsl]
  | succ n ih =>
    have hlt : s < l.length := by omega
    have hget : (m a.obj).get s = .ok l[s] := by
      rw [get_comps, hm]
      split
      · next h =>
        split at h
        · rw [List.getElem?_eq_getElem hlt] at h
          simpa using h.symm
        · rw [List.getElem?_append_right (by simp)] at h
          simp only [List.length_replicate, Nat.sub_self, List.getElem?_drop, Nat.add_zero] at h
          rw [List.getElem?_eq_getElem hlt] at h
          simpa using h.symm
      · next h =>
        split at h
        · rw [List.getElem?_eq_getElem hlt] at h; simp at h
        · rw [List.getElem?_append_right (by simp)] at h
          simp only [List.length_replicate, Nat.sub_self, List.getElem?_drop, Nat.add_zero] at h
          rw [List.getElem?_eq_getElem hlt] at h; simp at h
    have hdrop : l.drop s = l[s] :: l.drop (s + 1) := List.drop_eq_getElem_cons hlt
    rw [List.range'_succ, List.map_cons, List.foldlM_cons]
    by_cases hc : a.const = true
    · have hstep : catStep args (m, acc) (s, k) = .ok (m, acc ++ [l[s]]) := by
        simp [catStep, hk, hget, hc]
      rw [hstep, Res.ok_bind]
      obtain ⟨m', h1, h2, h3⟩ := ih (s + 1) (by omega) m (acc ++ [l[s]]) (by simpa [hc] using hm)
      exact ⟨m', by rw [h1, hdrop]; simp, h2, h3⟩
    · have hcf : a.const = false := by simpa using hc
      have hsz : s < (m a.obj).size := by
        rw [size_comps, hm]; simp [hcf]; omega
      obtain ⟨t, t1, t2, _⟩ := C56_set (m a.obj) s (none : Option α) hsz
      have hstep : catStep args (m, acc) (s, k)
          = .ok (fun o => if o = a.obj then t else m o, acc ++ [l[s]]) := by
        simp [catStep, hk, hget, hcf, t1]
      rw [hstep, Res.ok_bind]
      obtain ⟨m', h1, h2, h3⟩ := ih (s + 1) (by omega) (fun o => if o = a.obj then t else m o)
        (acc ++ [l[s]]) (by
          simp only [if_true, t2, hm, hcf, Bool.false_eq_true, if_false]
          rw [List.set_append_right _ _ (by simp)]
          simp only [List.length_replicate, Nat.sub_self]
          rw [hdrop, List.set_cons_zero, List.replicate_succ', List.append_assoc]
          rfl)
      refine ⟨m', by rw [h1, hdrop]; simp, h2, ?_⟩
      intro o ho
      rw [h3 o ho]
      rcases ho with ho | ho
      · simp [ho]
      · exact absurd ho hc

/-- Concatenation.  If no argument comes after a non-constant argument that is the same object,
the result has all components of all arguments, in order.  All components of the non-constant
arguments are moved from, also of those passed as lvalues; nothing else changes. -/
theorem C56_cat (m : Mem α) (args : List Arg)
    (hd : args.Pairwise fun a b => a.obj = b.obj → a.const = true) :
    ∃ m' r, cat m args = .ok (m', r) ∧ comps r = args.flatMap (fun a => comps (m a.obj)) ∧
      (∀ a ∈ args, a.const = false → ∀ x ∈ comps (m' a.obj), x = none) ∧
      ∀ o, (∀ a ∈ args, a.obj = o → a.const = true) → m' o = m o := by
  have outer : ∀ (rest pre : List Arg) (hp : args = pre ++ rest) (mem : Mem α) (acc : List (Option α)),
      rest.Pairwise (fun a b => a.obj = b.obj → a.const = true) →
      (∀ a ∈ rest, mem a.obj = m a.obj) →
      ∃ m', (((rest.map fun a => (m a.obj).size).zipIdx pre.length).flatMap fun p =>
          (List.range p.1).map fun i => (i, p.2)).foldlM (catStep args) (mem, acc)
          = .ok (m', acc ++ rest.flatMap (fun a => comps (m a.obj))) ∧
        (∀ a ∈ rest, a.const = false → ∀ x ∈ comps (m' a.obj), x = none) ∧
        ∀ o, (∀ a ∈ rest, a.obj = o → a.const = true) → m' o = mem o := by
    intro rest
    induction rest with
    | nil => intro pre _ mem acc _ _; exact ⟨mem, by simp, by simp, fun _ _ => rfl⟩
    | cons a rest ih =>
      intro pre hp mem acc hd hm
      obtain ⟨hd1, hd2⟩ := List.pairwise_cons.1 hd
      obtain ⟨m1, h1, h2, h3⟩ := cat_inner args pre.length a (by simp [hp]) (comps (m a.obj))
        (m a.obj).size 0 (by rw [size_comps]; omega) mem acc (by simp [hm a (by simp)])
      have hm1 : ∀ b ∈ rest, m1 b.obj = m b.obj := by
        intro b hb
        rw [h3 b.obj, hm b (by simp [hb])]
        by_cases hab : b.obj = a.obj
        · exact Or.inr (hd1 b hb hab.symm)
        · exact Or.inl hab
      obtain ⟨m2, g1, g2, g3⟩ := ih (pre ++ [a]) (by simp [hp]) m1 (acc ++ comps (m a.obj)) hd2 hm1
      refine ⟨m2, ?_, ?_, ?_⟩
      · simp only [List.map_cons, List.zipIdx_cons, List.flatMap_cons, List.foldlM_append]
        rw [List.range_eq_range', h1, Res.ok_bind]
        simp only [List.drop_zero]
        simp only [List.length_append, List.length_singleton] at g1
        rw [g1, List.append_assoc]
      · intro b hb hbc x hx
        rcases List.mem_cons.1 hb with rfl | hb
        · by_cases hr : ∃ c ∈ rest, c.obj = b.obj ∧ c.const = false
          · obtain ⟨c, c1, c2, c3⟩ := hr
            exact g2 c c1 c3 x (by rw [c2]; exact hx)
          · rw [g3 b.obj (by
              intro c hc hcb
              by_contra hcc
              exact hr ⟨c, hc, hcb, by simpa using hcc⟩), h2, hbc] at hx
            simp only [Bool.false_eq_true, if_false] at hx
            exact List.eq_of_mem_replicate hx
        · exact g2 b hb hbc x hx
      · intro o ho
        rw [g3 o (fun b hb => ho b (by simp [hb]))]
        refine h3 o ?_
        by_cases hao : o = a.obj
        · exact Or.inr (ho a (by simp) hao.symm)
        · exact Or.inl hao
  obtain ⟨m', h1, h2, h3⟩ := outer args [] (by simp) m [] hd (fun _ _ => rfl)
  refine ⟨m', Store.ofArgs (args.flatMap (fun a => comps (m a.obj))), ?_, by simp, h2, h3⟩
  have hz : List.zip (cartesian 0 [] [] (args.map fun a => (m a.obj).size)).1
      (cartesian 0 [] [] (args.map fun a => (m a.obj).size)).2
      = (((args.map fun a => (m a.obj).size).zipIdx 0).flatMap fun p =>
          (List.range p.1).map fun i => (i, p.2)) := by
    rw [cartesian_eq]
    simp only [List.nil_append]
    have e1 : (args.map fun a => (m a.obj).size).flatMap List.range
        = ((args.map fun a => (m a.obj).size).zipIdx 0).flatMap fun p => List.range p.1 := by
      have := List.flatMap_map (f := Prod.fst) (g := List.range)
        ((args.map fun a => (m a.obj).size).zipIdx 0)
      rw [List.zipIdx_map_fst] at this
      exact this
    rw [e1, zip_flatMap _ _ _ (by simp)]
    congr 1
    funext p
    have hz : ∀ l : List Nat, List.zip l (l.map fun _ => p.2) = l.map fun i => (i, p.2) := by
      intro l
      induction l with
      | nil => rfl
      | cons x l ih => simp only [List.map_cons, List.zip_cons_cons, ih]
    exact hz _
  simp only [cat]
  rw [hz]
  simp only [List.length_nil, List.nil_append] at h1
  rw [h1]
  rfl

/-- An lvalue given twice: `std::tuple_cat(t, t)` repeats the components of `t` and leaves `t`
as it was; here the second copy has moved-from components and so has `t`. -/
theorem C56_cat_moves_lvalues :
    let m : Mem Nat := fun _ => .ofArgs [some 7]
    ∃ m', cat m [⟨0, false⟩, ⟨0, false⟩] = .ok (m', .ofArgs [some 7, none]) ∧ m' 0 = .ofArgs [none] :=
  ⟨_, rfl, rfl⟩

/-- The rules of `SplineEvaluatorND` are given as lower, upper, lower, upper, ... -/
theorem C56_rules (sides : List (α × α)) :
    splitRules sides.length (.ofArgs (sides.flatMap fun s => [s.1, s.2]))
      = .ok (.ofArgs (sides.map (·.1)), .ofArgs (sides.map (·.2))) := by
  have hlen : ∀ sides : List (α × α), (sides.flatMap fun s => [s.1, s.2]).length = 2 * sides.length := by
    intro sides
    induction sides with
    | nil => rfl
    | cons s sides ih => simp only [List.flatMap_cons, List.length_append, ih]; simp; omega
  have hget : ∀ (sides : List (α × α)) (i : Nat) (hi : i < sides.length),
      (sides.flatMap fun s => [s.1, s.2])[2 * i]? = some (sides[i]).1 ∧
      (sides.flatMap fun s => [s.1, s.2])[2 * i + 1]? = some (sides[i]).2 := by
    intro sides
    induction sides with
    | nil => intro i hi; simp at hi
    | cons s sides ih =>
      intro i hi
      cases i with
      | zero => simp
      | succ i =>
        obtain ⟨g1, g2⟩ := ih i (by simpa using hi)
        have e1 : 2 * (i + 1) = 2 * i + 1 + 1 := by omega
        simp only [List.flatMap_cons, List.cons_append, List.nil_append, e1, List.getElem?_cons_succ,
          List.getElem_cons_succ]
        exact ⟨g1, g2⟩
  have hsz : (Store.ofArgs (sides.flatMap fun s => [s.1, s.2])).size = 2 * sides.length := by
    rw [size_comps, comps_ofArgs, hlen]
  have h1 := mapM_get (sides.map (·.1))
    (fun i => (Store.ofArgs (sides.flatMap fun s => [s.1, s.2])).get (2 * i)) (by
      intro i hi
      rw [get_comps, comps_ofArgs, (hget sides i (by simpa using hi)).1]
      simp)
  have h2 := mapM_get (sides.map (·.2))
    (fun i => (Store.ofArgs (sides.flatMap fun s => [s.1, s.2])).get (2 * i + 1)) (by
      intro i hi
      rw [get_comps, comps_ofArgs, (hget sides i (by simpa using hi)).2]
      simp)
  rw [List.length_map] at h1 h2
  simp only [splitRules, hsz, decide_true, Res.guardIll, if_true, Res.ok_bind, h1, h2]

/-! Non-vacuity. -/

/-- `int` and a type with `<` only. -/
def exampleComps : List (Comp Nat) :=
  [⟨some (.strongOrd, fun x y => if x < y then .less else if y < x then .greater else .equiv),
      some (fun x y => decide (x < y)), some (fun x y => decide (y < x)), some (fun x y => decide (x = y))⟩,
    ⟨none, some (fun x y => decide (x < y)), some (fun x y => decide (y < x)), some (fun x y => decide (x = y))⟩]

example : (∀ c ∈ exampleComps, Faithful c) ∧ category exampleComps = .ok .weakOrd ∧
    Cexa.compare exampleComps (.ofArgs [3, 5]) (.ofArgs [3, 4]) = .ok .greater ∧
    ltN exampleComps (.ofArgs [3, 4]) (.ofArgs [3, 5]) = .ok true := by
  refine ⟨?_, by decide, by decide, by decide⟩
  intro c hc
  simp only [exampleComps, List.mem_cons, List.not_mem_nil, or_false] at hc
  rcases hc with rfl | rfl
  · refine ⟨?_, ?_, ?_, ?_⟩
    · intro k f h x y; cases h; rfl
    · intro f h x y; cases h; rfl
    · intro f h x y; cases h; rfl
    · intro f h x y; cases h; rfl
  · refine ⟨?_, ?_, ?_, ?_⟩
    · intro k f h; cases h
    · intro f h x y; cases h; rfl
    · intro f h x y; cases h; rfl
    · intro f h x y; cases h; rfl

example : (cat (fun o => if o = 0 then .ofArgs [some 1, some 2] else .ofArgs [some 3] : Mem Nat)
      [⟨0, true⟩, ⟨1, false⟩, ⟨0, false⟩] >>= fun p => .ok (comps p.2, comps (p.1 0), comps (p.1 1)))
    = .ok ([some 1, some 2, some 3, some 1, some 2], [none, none], [none]) := by decide

/-- Which comparisons of tuples compile, and the category of the result: a component without `<=>` needs `<` in both
directions and no component with `partial_ordering` after it; the result is a `partial_ordering` exactly if one
component has one, and a `strong_ordering` exactly if all have. -/
theorem C56_category (cs : List (Comp α)) :
    ((∃ k, category cs = .ok k) ↔ (∀ c ∈ cs, c.three = none → c.lt.isSome ∧ c.gt.isSome) ∧
      cs.Pairwise fun c d => c.three = none → ∀ f, d.three ≠ some (.partialOrd, f)) ∧
    ∀ k, category cs = .ok k →
      (k = .partialOrd ↔ ∃ c ∈ cs, ∃ f, c.three = some (.partialOrd, f)) ∧
      (k = .strongOrd ↔ ∀ c ∈ cs, ∃ f, c.three = some (.strongOrd, f)) := by
  induction cs with
  | nil =>
    refine ⟨⟨fun _ => ⟨by simp, List.Pairwise.nil⟩, fun _ => ⟨_, rfl⟩⟩, fun k hk => ?_⟩
    cases hk
    simp
  | cons c cs ih =>
    obtain ⟨ih1, ih2⟩ := ih
    cases hr : category cs with
    | ok k =>
      obtain ⟨hA, hB⟩ := ih1.1 ⟨k, hr⟩
      obtain ⟨h3, h4⟩ := ih2 k hr
      cases hc : c.three with
      | some q =>
        obtain ⟨k', f⟩ := q
        have e : category (c :: cs) = .ok (k'.common k) := by simp [category, hr, hc]
        refine ⟨⟨fun _ => ⟨by simpa [hc] using hA, List.pairwise_cons.2 ⟨by simp [hc], hB⟩⟩, fun _ => ⟨_, e⟩⟩, fun r hk => ?_⟩
        rw [e] at hk
        cases hk
        simp only [List.mem_cons, exists_eq_or_imp, forall_eq_or_imp, ← h3, ← h4, hc]
        cases k' <;> cases k <;> simp [Cat.common]
      | none =>
        by_cases hp : k = .partialOrd
        · have e : category (c :: cs) = .ill := by simp [category, hr, hc, hp, Res.guardIll]
          refine ⟨⟨fun ⟨r, h⟩ => (by rw [e] at h; cases h), fun ⟨_, h⟩ => ?_⟩, fun r hk => by rw [e] at hk; cases hk⟩
          obtain ⟨d, hd, f, hf⟩ := h3.1 hp
          exact absurd hf ((List.pairwise_cons.1 h).1 d hd hc f)
        · have np : ∀ d ∈ cs, ∀ f, d.three ≠ some (.partialOrd, f) := fun d hd f hf => hp (h3.2 ⟨d, hd, f, hf⟩)
          by_cases hl : c.lt.isSome ∧ c.gt.isSome
          · have e : category (c :: cs) = .ok .weakOrd := by simp [category, hr, hc, hp, hl.1, hl.2, Res.guardIll]
            refine ⟨⟨fun _ => ⟨fun d hd => ?_, List.pairwise_cons.2 ⟨fun d hd _ => np d hd, hB⟩⟩, fun _ => ⟨_, e⟩⟩,
              fun r hk => ?_⟩
            · rcases List.mem_cons.1 hd with rfl | hd
              · exact fun _ => hl
              · exact hA d hd
            · rw [e] at hk
              cases hk
              simp only [List.mem_cons, exists_eq_or_imp, forall_eq_or_imp, ← h3, ← h4, hc]
              simp [hp]
          · have e : category (c :: cs) = .ill := by
              have : (c.lt.isSome && c.gt.isSome) = false := by
                rw [Bool.eq_false_iff]
                simpa using hl
              simp [category, hr, hc, hp, this, Res.guardIll]
            exact ⟨⟨fun ⟨r, h⟩ => (by rw [e] at h; cases h), fun ⟨h, _⟩ => absurd (h c (by simp) hc) hl⟩,
              fun r hk => by rw [e] at hk; cases hk⟩
    | _ =>
      have ne : ¬∃ k, category cs = .ok k := by simp [hr]
      have e : ∀ k, category (c :: cs) ≠ .ok k := by simp [category, hr]
      refine ⟨⟨fun ⟨k, h⟩ => absurd h (e k), fun ⟨h1, h2⟩ => absurd (ih1.2 ⟨fun d hd => h1 d (List.mem_cons_of_mem _ hd),
        (List.pairwise_cons.1 h2).2⟩) ne⟩, fun k h => absurd h (e k)⟩
end DDC.Props
