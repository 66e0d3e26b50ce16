import Verif.Lemmas.Tuple
import Verif.Lemmas.Domain
import Verif.Model.Coordinate
import Mathlib.Algebra.Group.Basic
import Mathlib.Data.List.Perm.Basic

/-!
# C53 — coordinates
-/

namespace DDC.Props

open Tup TaggedVector

variable {τ α β γ : Type} [DecidableEq τ]

/-! ## Specification -/

/-- `r` has the tags of `x`, in their order, and the value `f v w` for a tag where `x` has `v` and `y`
has `w`. -/
def TagWise (f : α → β → γ) (x : Tup τ α) (y : Tup τ β) (r : Tup τ γ) : Prop :=
  tags r = tags x ∧ ∀ q v w, get q x = .ok v → get q y = .ok w → get q r = .ok (f v w)

/-- The same with one operand. -/
def TagWise1 (f : α → γ) (x : Tup τ α) (r : Tup τ γ) : Prop :=
  tags r = tags x ∧ ∀ q v, get q x = .ok v → get q r = .ok (f v)

/-- The same tags, in any order. -/
def SameTags (x : Tup τ α) (y : Tup τ β) : Prop := ∀ q, q ∈ tags x ↔ q ∈ tags y

private theorem perm_of_get {x y : Tup τ α} (hx : (tags x).Nodup) (hy : (tags y).Nodup)
    (h : ∀ q v, get q x = .ok v ↔ get q y = .ok v) : x.Perm y := by
  have nd : ∀ z : Tup τ α, (tags z).Nodup → z.Nodup := fun z hz =>
    (List.pairwise_map.1 hz).imp (fun h he => h (by rw [he]))
  rw [List.perm_ext_iff_of_nodup (nd x hx) (nd y hy)]
  rintro ⟨q, v⟩
  rw [← get_iff_mem hx, ← get_iff_mem hy]
  exact h q v

private theorem get_perm {x y : Tup τ α} (hx : (tags x).Nodup) (h : x.Perm y) (q : τ) : get q x = get q y := by
  have hy : (tags y).Nodup := (h.map Prod.fst).nodup hx
  rcases get_cases q x with ⟨hq, e⟩ | ⟨hq, v, e⟩
  · rw [e, get_ill (fun hm => hq ((h.map Prod.fst).mem_iff.2 hm))]
  · rw [e]; exact (get_of_mem hy (h.mem_iff.1 (get_mem e))).symm

/-- Tag-wise results do not depend on the order of the tags of the operands, except for the order of
their own tags. -/
theorem C53_order (f : α → β → γ) (x x' : Tup τ α) (y y' : Tup τ β) (r r' : Tup τ γ)
    (hx : (tags x).Nodup) (hy : (tags y).Nodup) (hs : SameTags x y) (px : x.Perm x') (py : y.Perm y')
    (h : TagWise f x y r) (h' : TagWise f x' y' r') : r.Perm r' := by
  have hx' : (tags x').Nodup := (px.map Prod.fst).nodup hx
  have ht : ∀ q, q ∈ tags x ↔ q ∈ tags x' := fun q => (px.map Prod.fst).mem_iff
  have key : ∀ q, get q r = get q r' := by
    intro q
    by_cases hq : q ∈ tags x
    · obtain ⟨v, hv⟩ := get_ok_iff_mem_tags.2 hq
      obtain ⟨w, hw⟩ := get_ok_iff_mem_tags.2 ((hs q).1 hq)
      rw [h.2 q v w hv hw, h'.2 q v w (by rw [← get_perm hx px]; exact hv) (by rw [← get_perm hy py]; exact hw)]
    · rw [get_ill (by rw [h.1]; exact hq), get_ill (by rw [h'.1]; exact fun hm => hq ((ht q).2 hm))]
  exact perm_of_get (by rw [h.1]; exact hx) (by rw [h'.1]; exact hx') (fun q v => by rw [key])

/-! ## Arithmetic -/

private theorem zip_ok (f : α → β → γ) (x : Tup τ α) (y : Tup τ β) (hs : SameTags x y) :
    ∃ r, zipVals (fun v w => Res.ok (f v w)) x y = .ok r ∧ TagWise f x y r := by
  obtain ⟨r, h1, h2, h3⟩ := zipVals_ok (f := fun v w => Res.ok (f v w)) (x := x) (y := y) (by
    intro q v hv
    obtain ⟨w, hw⟩ := get_ok_iff_mem_tags.2 ((hs q).1 (List.mem_map.2 ⟨_, hv, rfl⟩))
    exact ⟨w, _, hw, rfl⟩)
  exact ⟨r, h1, h2, h3⟩

private theorem guard_same {x : Tup τ α} {y : Tup τ β} (hs : SameTags x y) {m : Res γ} :
    (Res.guardIll (TypeSeq.same x.tags y.tags) >>= fun _ => m) = m := by
  rw [(TypeSeq.same_iff _ _).2 hs]
  rfl

private theorem guard_other {x : Tup τ α} {y : Tup τ β} (hs : ¬ SameTags x y) {m : Res γ} :
    (Res.guardIll (TypeSeq.same x.tags y.tags) >>= fun _ => m) = .ill := by
  have : TypeSeq.same x.tags y.tags = false := by
    rw [Bool.eq_false_iff]
    exact fun h => hs ((TypeSeq.same_iff _ _).1 h)
  rw [this]
  rfl

/-- **C53, sum**: tag by tag; vectors over different sets of tags are refused by the compiler. -/
theorem C53_add [HAdd α β γ] (x : Tup τ α) (y : Tup τ β) :
    (SameTags x y → ∃ r : Tup τ γ, add x y = .ok r ∧ TagWise (fun v w => v + w) x y r) ∧
    (¬ SameTags x y → (add x y : Res (Tup τ γ)) = .ill) := by
  refine ⟨fun hs => ?_, fun hs => ?_⟩
  · rw [add, guard_same hs]; exact zip_ok _ x y hs
  · rw [add, guard_other hs]

/-- **C53, difference.** -/
theorem C53_sub [HSub α β γ] (x : Tup τ α) (y : Tup τ β) :
    (SameTags x y → ∃ r : Tup τ γ, TaggedVector.sub x y = .ok r ∧ TagWise (fun v w => v - w) x y r) ∧
    (¬ SameTags x y → (TaggedVector.sub x y : Res (Tup τ γ)) = .ill) := by
  refine ⟨fun hs => ?_, fun hs => ?_⟩
  · rw [TaggedVector.sub, guard_same hs]; exact zip_ok _ x y hs
  · rw [TaggedVector.sub, guard_other hs]

/-- **C53, sign and multiples.** -/
theorem C53_neg_smul [Neg α] [HMul β α γ] (x : Tup τ α) (s : β) :
    pos x = x ∧ (∃ r, neg x = .ok r ∧ TagWise1 (fun v => -v) x r) ∧
    ∃ r : Tup τ γ, smul s x = .ok r ∧ TagWise1 (fun v => s * v) x r := by
  refine ⟨rfl, ?_, ?_⟩
  · obtain ⟨r, h1, h2, h3⟩ := mapVals_ok (f := fun v : α => Res.ok (-v)) (x := x) (fun v _ => ⟨_, rfl⟩)
    exact ⟨r, h1, h2, h3⟩
  · obtain ⟨r, h1, h2, h3⟩ := mapVals_ok (f := fun v : α => Res.ok (s * v)) (x := x) (fun v _ => ⟨_, rfl⟩)
    exact ⟨r, h1, h2, h3⟩

/-- **C53, scalars**: sums and differences with a scalar exist for exactly one tag. -/
theorem C53_scalar [HAdd α β γ] [HAdd β α γ] [HSub α β γ] [HSub β α γ] (s : β) :
    (∀ (t : τ) (v : α), addScalar [(t, v)] s = .ok [(t, (v + s : γ))] ∧ scalarAdd s [(t, v)] = .ok [(t, (s + v : γ))] ∧
      subScalar [(t, v)] s = .ok [(t, (v - s : γ))] ∧ scalarSub s [(t, v)] = .ok [(t, (s - v : γ))] ∧
      value [(t, v)] = .ok v) ∧
    ∀ x : Tup τ α, x.length ≠ 1 → (addScalar x s : Res (Tup τ γ)) = .ill ∧ (scalarAdd s x : Res (Tup τ γ)) = .ill ∧
      (subScalar x s : Res (Tup τ γ)) = .ill ∧ (scalarSub s x : Res (Tup τ γ)) = .ill ∧ value x = .ill := by
  refine ⟨fun t v => ⟨rfl, rfl, rfl, rfl, rfl⟩, fun x hx => ?_⟩
  match x, hx with
  | [], _ => exact ⟨rfl, rfl, rfl, rfl, rfl⟩
  | [_], hx => exact absurd rfl hx
  | _ :: _ :: _, _ => exact ⟨rfl, rfl, rfl, rfl, rfl⟩

private theorem foldAssign_ok (op : α → α → α) (operand : τ → Tup τ α → Res α) (w : τ → α) (qs : List τ) (x : Tup τ α)
    (hnd : qs.Nodup) (hx : (tags x).Nodup) (hq : ∀ q ∈ qs, q ∈ tags x)
    (ho : ∀ q ∈ qs, ∀ x', get q x' = get q x → operand q x' = .ok (w q)) :
    ∃ r, foldAssign op operand qs x = .ok r ∧ tags r = tags x ∧ (∀ q, q ∉ qs → get q r = get q x) ∧
      ∀ q ∈ qs, ∀ v, get q x = .ok v → get q r = .ok (op v (w q)) := by
  induction qs generalizing x with
  | nil => exact ⟨x, rfl, rfl, fun _ _ => rfl, fun q hq => absurd hq (by simp)⟩
  | cons q qs ih =>
    rw [List.nodup_cons] at hnd
    obtain ⟨v, hv⟩ := get_ok_iff_mem_tags.2 (hq q (by simp))
    obtain ⟨x', m1, m2, m3, m4⟩ := modify_ok (f := fun v => Res.ok (op v (w q))) hx hv rfl
    have hne : ∀ p ∈ qs, p ≠ q := fun p hp he => hnd.1 (he ▸ hp)
    obtain ⟨r, r1, r2, r3, r4⟩ := ih x' hnd.2 (by rw [m2]; exact hx) (fun p hp => by rw [m2]; exact hq p (by simp [hp]))
      (fun p hp y hy => ho p (by simp [hp]) y (by rw [hy, m4 p (hne p hp)]))
    refine ⟨r, ?_, by rw [r2, m2], ?_, ?_⟩
    · rw [foldAssign, ho q (by simp) x rfl, Res.ok_bind, m1, Res.ok_bind, r1]
    · intro p hp
      rw [List.mem_cons, not_or] at hp
      rw [r3 p hp.2, m4 p hp.1]
    · intro p hp u hu
      by_cases he : p = q
      · subst he
        rw [hv] at hu
        rw [r3 p hnd.1, ← Res.ok.inj hu]
        exact m3
      · refine r4 p ((List.mem_cons.1 hp).resolve_left he) u ?_
        rw [m4 p he]; exact hu

/-- **C53, compound assignments** of another vector or of the vector itself. -/
theorem C53_assign (op : α → α → α) (x y : Tup τ α) (hx : (tags x).Nodup) :
    (SameTags x y → ∃ r, assign op x (.other y) = .ok r ∧ TagWise op x y r) ∧
    (¬ SameTags x y → assign op x (.other y) = .ill) ∧
    ∃ r, assign op x (.own ()) = .ok r ∧ TagWise op x x r := by
  refine ⟨fun hs => ?_, fun hs => ?_, ?_⟩
  · rw [assign, guard_same hs]
    have hv : ∀ q ∈ tags x, ∃ w, get q y = .ok w := fun q hq => get_ok_iff_mem_tags.2 ((hs q).1 hq)
    cases hxe : x with
    | nil => exact ⟨[], rfl, rfl, fun q v w h => absurd h (by simp)⟩
    | cons p xs =>
      rw [← hxe]
      obtain ⟨r, r1, r2, _, r4⟩ := foldAssign_ok op (fun q _ => get q y)
        (fun q => match get q y with | .ok w => w | _ => p.2) (tags x) x hx hx (fun _ h => h) (by
          intro q hq x' _
          obtain ⟨w, hw⟩ := hv q hq
          simp only [hw])
      refine ⟨r, r1, r2, ?_⟩
      intro q v w h1 h2
      have := r4 q (get_ok_iff_mem_tags.1 ⟨v, h1⟩) v h1
      simpa only [h2] using this
  · rw [assign, guard_other hs]
  · rw [assign]
    cases hxe : x with
    | nil => exact ⟨[], rfl, rfl, fun q v w h => absurd h (by simp)⟩
    | cons p xs =>
      rw [← hxe]
      obtain ⟨r, r1, r2, _, r4⟩ := foldAssign_ok op (fun q x' => get q x')
        (fun q => match get q x with | .ok w => w | _ => p.2) (tags x) x hx hx (fun _ h => h) (by
          intro q hq x' hx'
          obtain ⟨w, hw⟩ := get_ok_iff_mem_tags.2 hq
          simp only [hx', hw])
      refine ⟨r, r1, r2, ?_⟩
      intro q v w h1 h2
      have := r4 q (get_ok_iff_mem_tags.1 ⟨v, h1⟩) v h1
      simpa only [h2] using this

/-- **C53, compound assignments of a scalar.**  Full statement: every component `v` becomes
`op v s`.  Proved for a scalar that is not a component of the vector, or is its last one;
`C53_scalar_alias` shows that it is false for another component. -/
theorem C53_assign_scalar_partial (op : α → α → α) (x : Tup τ α) (hx : (tags x).Nodup) :
    (∀ s, ∃ r, assignScalar op x (.other s) = .ok r ∧ TagWise1 (fun v => op v s) x r) ∧
    ∀ before p s, x = before ++ [(p, s)] →
      ∃ r, assignScalar op x (.own p) = .ok r ∧ TagWise1 (fun v => op v s) x r := by
  constructor
  · intro s
    obtain ⟨r, r1, r2, _, r4⟩ := foldAssign_ok op (fun _ _ => .ok s) (fun _ => s) (tags x) x hx hx (fun _ h => h)
      (fun _ _ _ _ => rfl)
    exact ⟨r, r1, r2, fun q v h => r4 q (get_ok_iff_mem_tags.1 ⟨v, h⟩) v h⟩
  · rintro before p s rfl
    have hp : get p (before ++ [(p, s)]) = .ok s := get_of_mem hx (by simp)
    have hnd := hx
    rw [tags_append, tags_cons, tags_nil] at hnd
    have hd := List.nodup_append.1 hnd
    have hpb : p ∉ tags before := fun h => hd.2.2 p h p (by simp) rfl
    -- the components before the last
    have key : ∀ (qs : List τ) (y : Tup τ α), qs.Nodup → (tags y).Nodup → (∀ q ∈ qs, q ∈ tags y ∧ q ≠ p) → get p y = .ok s →
        ∃ r, foldAssign op (fun _ x' => get p x') (qs ++ [p]) y = .ok r ∧ tags r = tags y ∧
          (∀ q, q ∉ qs → q ≠ p → get q r = get q y) ∧ (∀ q, q ∈ qs ∨ q = p → ∀ v, get q y = .ok v → get q r = .ok (op v s)) := by
      intro qs
      induction qs with
      | nil =>
        intro y _ hy _ hs
        obtain ⟨x', m1, m2, m3, m4⟩ := modify_ok (f := fun v => Res.ok (op v s)) hy hs rfl
        refine ⟨x', ?_, m2, fun q _ hq => m4 q hq, ?_⟩
        · rw [List.nil_append, foldAssign, hs, Res.ok_bind, m1, Res.ok_bind, foldAssign]
        · rintro q (hq | rfl) v hv
          · simp at hq
          · rw [hs] at hv; rw [← Res.ok.inj hv]; exact m3
      | cons q qs ih =>
        intro y hn hy hq hs
        rw [List.nodup_cons] at hn
        obtain ⟨v, hv⟩ := get_ok_iff_mem_tags.2 (hq q (by simp)).1
        have hqp := (hq q (by simp)).2
        obtain ⟨x', m1, m2, m3, m4⟩ := modify_ok (f := fun v => Res.ok (op v s)) hy hv rfl
        obtain ⟨r, r1, r2, r3, r4⟩ := ih x' hn.2 (by rw [m2]; exact hy)
          (fun a ha => ⟨by rw [m2]; exact (hq a (by simp [ha])).1, (hq a (by simp [ha])).2⟩)
          (by rw [m4 p (fun h => hqp h.symm)]; exact hs)
        refine ⟨r, ?_, by rw [r2, m2], ?_, ?_⟩
        · rw [List.cons_append, foldAssign, hs, Res.ok_bind, m1, Res.ok_bind, r1]
        · intro a ha hap
          rw [List.mem_cons, not_or] at ha
          rw [r3 a ha.2 hap, m4 a ha.1]
        · intro a ha u hu
          by_cases he : a = q
          · subst he
            rw [hv] at hu
            rw [r3 a hn.1 hqp, ← Res.ok.inj hu]
            exact m3
          · refine r4 a ?_ u (by rw [m4 a he]; exact hu)
            rcases ha with ha | ha
            · exact .inl ((List.mem_cons.1 ha).resolve_left he)
            · exact .inr ha
    obtain ⟨r, r1, r2, _, r4⟩ := key (tags before) (before ++ [(p, s)]) hd.1 hx
      (fun q hq => ⟨by rw [tags_append]; exact List.mem_append_left _ hq, fun he => hpb (he ▸ hq)⟩) hp
    refine ⟨r, ?_, r2, ?_⟩
    · rw [assignScalar, tags_append]; exact r1
    · intro q v hv
      refine r4 q ?_ v hv
      have := get_ok_iff_mem_tags.1 ⟨v, hv⟩
      rw [tags_append] at this
      simpa using this

/-- **Disagreement.**  `v += v.get<X>()` adds the component `x` to `x`, then the result of that to the
other components. -/
theorem C53_scalar_alias : assignScalar (· + ·) [('x', (1 : Int)), ('y', 10)] (.own 'x') =
    .ok [('x', 2), ('y', 12)] := by decide

/-! ## Construction, selection, access -/

/-- **C53, construction** from sub-vectors: accepted exactly when every tag is in exactly one argument,
whose (converted) value it gets; the order of the arguments and of their tags is irrelevant. -/
theorem C53_ctor (conv : β → α) (qs : List τ) (xs : List (Tup τ β)) :
    ((∃ r, ofVectors conv qs xs = .ok r) ↔ ∀ q ∈ qs, ∃ l x r, xs = l ++ x :: r ∧ q ∈ tags x ∧
        (∀ y ∈ l, q ∉ tags y) ∧ ∀ y ∈ r, q ∉ tags y) ∧
    ∀ r, ofVectors conv qs xs = .ok r →
      tags r = qs ∧ ∀ q ∈ qs, ∀ x ∈ xs, ∀ v, get q x = .ok v → get q r = .ok (conv v) := by
  have hm : ∀ y : Tup τ β, ∃ r, mapVals (fun v => Res.ok (conv v)) y = .ok r ∧ tags r = tags y ∧
      ∀ q v, get q y = .ok v → get q r = .ok (conv v) :=
    fun y => mapVals_ok (f := fun v : β => Res.ok (conv v)) (x := y) (fun v _ => ⟨_, rfl⟩)
  refine ⟨⟨fun ⟨r, h⟩ => ?_, fun h => ?_⟩, ?_⟩
  · obtain ⟨y, hy, _⟩ := Res.bind_eq_ok.1 h
    exact ofTuples_inv hy
  · obtain ⟨y, hy, _⟩ := ofTuples_ok h
    obtain ⟨r, hr, _⟩ := hm y
    exact ⟨r, by rw [ofVectors, hy, Res.ok_bind, hr]⟩
  · intro r h
    obtain ⟨y, hy, h2⟩ := Res.bind_eq_ok.1 h
    obtain ⟨y', e1, e2, e3⟩ := ofTuples_ok (ofTuples_inv hy)
    rw [hy] at e1
    obtain rfl := Res.ok.inj e1
    obtain ⟨r', f1, f2, f3⟩ := hm y
    rw [h2] at f1
    obtain rfl := Res.ok.inj f1
    refine ⟨by rw [f2, e2], fun q hq x hx v hv => f3 q v ?_⟩
    rw [e3 q hq x hx (get_ok_iff_mem_tags.1 ⟨v, hv⟩), hv]

/-- **C53, construction from values**, one for each tag in order. -/
theorem C53_ctor_values (conv : β → α) (qs : List τ) (params : List β) :
    (params.length ≠ qs.length → ofValues conv qs params = .ill) ∧
    (params.length = qs.length → ∃ r, ofValues conv qs params = .ok r ∧ tags r = qs ∧ vals r = params.map conv ∧
      ∀ i v, params[i]? = some v → at' r i = .ok (conv v)) := by
  refine ⟨fun h => by rw [ofValues, if_neg h], fun h => ⟨_, by rw [ofValues, if_pos h], ?_, ?_, ?_⟩⟩
  · exact List.map_fst_zip (by simp [h])
  · exact List.map_snd_zip (by simp [h])
  · intro i v hv
    have : vals (qs.zip (params.map conv)) = params.map conv := List.map_snd_zip (by simp [h])
    rw [at', this, List.getElem?_map, hv]
    rfl

/-- **C53, selection**: the values of the requested tags, in the requested order. -/
theorem C53_select (qs : List τ) (x : Tup τ α) :
    ((∀ q ∈ qs, q ∈ tags x) → ∃ r, select qs x = .ok r ∧ tags r = qs ∧ ∀ q ∈ qs, get q r = get q x) ∧
    ((∃ q ∈ qs, q ∉ tags x) → select qs x = .ill) :=
  ⟨select_ok, fun ⟨_, hq, h⟩ => select_ill hq h⟩

/-! ## Comparison -/

/-- **C53, equality** with any comparison of the element types (`==` of `double` is not reflexive):
true iff it holds for each tag, whatever the orders of the tags. -/
theorem C53_eq (cmp : α → β → Bool) (x : Tup τ α) (y : Tup τ β) (hx : (tags x).Nodup)
    (hs : ∀ q ∈ tags x, q ∈ tags y) :
    ∃ b, TaggedVector.eq cmp x y = .ok b ∧ TaggedVector.ne cmp x y = .ok (!b) ∧
      (b = true ↔ ∀ q v w, get q x = .ok v → get q y = .ok w → cmp v w = true) := by
  suffices h : ∃ b, TaggedVector.eq cmp x y = .ok b ∧
      (b = true ↔ ∀ q v w, get q x = .ok v → get q y = .ok w → cmp v w = true) by
    obtain ⟨b, h1, h2⟩ := h
    exact ⟨b, h1, by rw [TaggedVector.ne, h1]; rfl, h2⟩
  induction x with
  | nil => exact ⟨true, rfl, by simp⟩
  | cons p x ih =>
    obtain ⟨t, v⟩ := p
    simp only [tags_cons, List.nodup_cons] at hx
    obtain ⟨b, hb, hb'⟩ := ih hx.2 (fun q hq => hs q (by simp [hq]))
    obtain ⟨w, hw⟩ := get_ok_iff_mem_tags.2 (hs t (by simp))
    refine ⟨cmp v w && b, by simp [TaggedVector.eq, hw, hb], ?_⟩
    rw [Bool.and_eq_true, hb']
    constructor
    · rintro ⟨h1, h2⟩ q a c ha hc
      rw [get_cons] at ha
      split at ha
      · rename_i he
        subst he
        rw [hw] at hc
        rw [← Res.ok.inj ha, ← Res.ok.inj hc]
        exact h1
      · exact h2 q a c ha hc
    · intro h
      refine ⟨h t v w (by simp) hw, fun q a c ha hc => h q a c ?_ hc⟩
      have hne : q ≠ t := by rintro rfl; exact hx.1 (get_ok_iff_mem_tags.1 ⟨a, ha⟩)
      rw [get_cons, if_neg hne]
      exact ha

/-- Equality is refused by the compiler when the right operand misses a tag of the left one; with
more tags on the right it is accepted, and the others are ignored (`C53_eq`): it is not symmetric. -/
theorem C53_eq_missing (cmp : α → β → Bool) (x : Tup τ α) (y : Tup τ β) (q : τ) (hq : q ∈ tags x) (h : q ∉ tags y) :
    TaggedVector.eq cmp x y = .ill := by
  induction x with
  | nil => simp at hq
  | cons p x ih =>
    obtain ⟨t, v⟩ := p
    by_cases ht : t ∈ tags y
    · obtain ⟨w, hw⟩ := get_ok_iff_mem_tags.2 ht
      have hne : q ≠ t := by rintro rfl; exact h ht
      have : q ∈ tags x := by simpa [hne] using hq
      simp [TaggedVector.eq, hw, ih this]
    · simp [TaggedVector.eq, get_ill ht]

/-! ## Laws -/

/-- **C53, group laws**: for element types that form a commutative group, sums of tagged vectors
commute up to the order of the tags, and subtraction undoes addition. -/
theorem C53_group [AddCommGroup α] (x y : Tup τ α) (hx : (tags x).Nodup) (hy : (tags y).Nodup) (hs : SameTags x y) :
    ∃ a b, (add x y : Res (Tup τ α)) = .ok a ∧ (add y x : Res (Tup τ α)) = .ok b ∧ a.Perm b ∧
      TaggedVector.sub a y = .ok x ∧
      ∃ n, neg y = .ok n ∧ TaggedVector.sub x y = (add x n : Res (Tup τ α)) := by
  obtain ⟨a, a1, a2, a3⟩ := (C53_add (γ := α) x y).1 hs
  obtain ⟨b, b1, b2, b3⟩ := (C53_add (γ := α) y x).1 (fun q => (hs q).symm)
  have sa : SameTags a y := fun q => by rw [a2]; exact hs q
  obtain ⟨d, d1, d2, d3⟩ := (C53_sub (γ := α) a y).1 sa
  obtain ⟨n, n1, n2, n3⟩ := mapVals_ok (f := fun v : α => Res.ok (-v)) (x := y) (fun v _ => ⟨_, rfl⟩)
  have sn : SameTags x n := fun q => by rw [n2]; exact hs q
  obtain ⟨e, e1, e2, e3⟩ := (C53_add (γ := α) x n).1 sn
  obtain ⟨f, f1, f2, f3⟩ := (C53_sub (γ := α) x y).1 hs
  have both : ∀ q ∈ tags x, ∃ v w, get q x = .ok v ∧ get q y = .ok w := by
    intro q hq
    obtain ⟨v, hv⟩ := get_ok_iff_mem_tags.2 hq
    obtain ⟨w, hw⟩ := get_ok_iff_mem_tags.2 ((hs q).1 hq)
    exact ⟨v, w, hv, hw⟩
  refine ⟨a, b, a1, b1, ?_, ?_, n, n1, ?_⟩
  · refine perm_of_get (by rw [a2]; exact hx) (by rw [b2]; exact hy) (fun q u => ?_)
    by_cases hq : q ∈ tags x
    · obtain ⟨v, w, hv, hw⟩ := both q hq
      rw [a3 q v w hv hw, b3 q w v hw hv]
      dsimp only
      rw [add_comm]
    · rw [get_ill (by rw [a2]; exact hq), get_ill (by rw [b2]; exact fun h => hq ((hs q).2 h))]
  · rw [d1]
    congr 1
    refine ext_get (by rw [d2, a2]) (by rw [d2, a2]; exact hx) (fun q hq => ?_)
    rw [d2, a2] at hq
    obtain ⟨v, w, hv, hw⟩ := both q hq
    rw [d3 q _ w (a3 q v w hv hw) hw, hv]
    dsimp only
    rw [add_sub_cancel_right]
  · rw [f1, e1]
    congr 1
    refine ext_get (by rw [f2, e2]) (by rw [f2]; exact hx) (fun q hq => ?_)
    rw [f2] at hq
    obtain ⟨v, w, hv, hw⟩ := both q hq
    rw [f3 q v w hv hw, e3 q v (-w) hv (n3 q w hw)]
    dsimp only
    rw [sub_eq_add_neg]

/-! ## Coordinates of elements -/

/-- **C53, coordinates of elements of several dimensions**: the coordinate along the continuous
dimension of each discrete dimension is that of the component of the element. -/
theorem C53_coordinate {σ K : Type} [DecidableEq σ] (cd : τ → σ) (cs : τ → Elem τ → Res K) (c : Elem τ) (f : τ → K)
    (hc : (tags c).Nodup) (hcd : ((tags c).map cd).Nodup)
    (hf : ∀ q v, get q c = .ok v → cs q [(q, v)] = .ok (f q)) :
    ∃ r, coordinates cd cs c = .ok r ∧ tags r = (tags c).map cd ∧ ∀ q ∈ tags c, get (cd q) r = .ok (f q) := by
  have h1 : (tags c).mapM (fun q => do
      let e ← Tup.select [q] c
      let x ← cs q e
      pure [(cd q, x)]) = .ok ((tags c).map (fun q => [(cd q, f q)])) := by
    refine mapM_ok (fun q hq => ?_)
    obtain ⟨v, hv⟩ := get_ok_iff_mem_tags.2 hq
    obtain ⟨e, e1, e2, e3⟩ := select_ok (qs := [q]) (x := c) (by simpa using hq)
    have he : e = [(q, v)] := by
      refine ext_get (by rw [e2]; rfl) (by rw [e2]; simp) (fun p hp => ?_)
      rw [e2, List.mem_singleton] at hp
      subst hp
      rw [e3 p (by simp), hv]
      simp
    rw [e1, Res.ok_bind, he, hf q v hv, Res.ok_bind]
    rfl
  have own : ∀ p ∈ (tags c).map cd, OwnedOnce p ((tags c).map (fun q => [(cd q, f q)])) := by
    intro p hp
    obtain ⟨q, hq, rfl⟩ := List.mem_map.1 hp
    obtain ⟨l, r, hlr⟩ := List.append_of_mem hq
    rw [hlr] at hcd
    rw [List.map_append, List.map_cons, List.nodup_append, List.nodup_cons] at hcd
    refine ⟨l.map (fun q => [(cd q, f q)]), [(cd q, f q)], r.map (fun q => [(cd q, f q)]), by rw [hlr]; simp, by simp, ?_, ?_⟩
    · intro y hy hm
      obtain ⟨a, ha, rfl⟩ := List.mem_map.1 hy
      simp only [tags_cons, tags_nil, List.mem_singleton] at hm
      exact hcd.2.2 (cd a) (List.mem_map_of_mem ha) (cd q) (by simp) hm.symm
    · intro y hy hm
      obtain ⟨a, ha, rfl⟩ := List.mem_map.1 hy
      simp only [tags_cons, tags_nil, List.mem_singleton] at hm
      exact hcd.2.1.1 (hm ▸ List.mem_map_of_mem ha)
  obtain ⟨r, r1, r2, r3⟩ := ofTuples_ok own
  refine ⟨r, ?_, r2, ?_⟩
  · rw [coordinates, h1, Res.ok_bind, r1]
  · intro q hq
    rw [r3 (cd q) (List.mem_map_of_mem hq) [(cd q, f q)] (List.mem_map.2 ⟨q, hq, rfl⟩) (by simp)]
    simp

/-- Two dimensions of the element that sample the same continuous dimension are refused by the
compiler. -/
theorem C53_coordinate_clash {σ K : Type} [DecidableEq σ] (cd : τ → σ) (cs : τ → Elem τ → Res K) (c : Elem τ)
    (hcd : ¬ ((tags c).map cd).Nodup) : ∀ r, coordinates cd cs c ≠ .ok r := by
  intro r hr
  obtain ⟨l, h1, h2⟩ := Res.bind_eq_ok.1 hr
  have own := ofTuples_inv h2
  have ht : l.map tags = (tags c).map (fun q => [cd q]) := by
    clear own h2 hr hcd
    generalize tags c = qs at h1
    induction qs generalizing l with
    | nil =>
      simp only [List.mapM_nil] at h1
      obtain rfl := Res.ok.inj h1
      rfl
    | cons q qs ih =>
      rw [List.mapM_cons] at h1
      obtain ⟨a, a1, a2⟩ := Res.bind_eq_ok.1 h1
      obtain ⟨b, b1, b2⟩ := Res.bind_eq_ok.1 a2
      obtain ⟨e, _, a3⟩ := Res.bind_eq_ok.1 a1
      obtain ⟨x, _, a4⟩ := Res.bind_eq_ok.1 a3
      obtain rfl := Res.ok.inj b2
      obtain rfl := Res.ok.inj a4
      rw [List.map_cons, List.map_cons, ih b b1]
      rfl
  have hex : ∃ i j : Nat, i < j ∧ ∃ p, ((tags c).map cd)[i]? = some p ∧ ((tags c).map cd)[j]? = some p := by
    by_contra hn
    refine hcd (List.pairwise_iff_getElem.2 (fun i j hi hj hij he => hn ⟨i, j, hij, _, ?_, List.getElem?_eq_getElem hj⟩))
    rw [List.getElem?_eq_getElem hi, he]
  obtain ⟨i, j, hij, p, hi, hj⟩ := hex
  obtain ⟨l1, x, l2, rfl, hx, hl1, hl2⟩ := own p (List.mem_of_getElem? hi)
  have at_ : ∀ k : Nat, ((tags c).map cd)[k]? = some p → k = l1.length := by
    intro k hk
    have hk' : ((l1 ++ x :: l2).map tags)[k]? = some [p] := by
      rw [ht]
      rw [List.getElem?_map] at hk ⊢
      cases hc : (tags c)[k]? with
      | none => rw [hc] at hk; simp at hk
      | some q => rw [hc] at hk; simp at hk ⊢; exact hk
    rw [List.getElem?_map] at hk'
    cases he : (l1 ++ x :: l2)[k]? with
    | none => rw [he] at hk'; simp at hk'
    | some y =>
      rw [he] at hk'
      have hy : tags y = [p] := by simpa using hk'
      rcases Nat.lt_trichotomy k l1.length with h | h | h
      · rw [List.getElem?_append_left h] at he
        exact absurd (by rw [hy]; simp) (hl1 y (List.mem_of_getElem? he))
      · exact h
      · rw [List.getElem?_append_right (by omega)] at he
        obtain ⟨m, hm⟩ : ∃ m, k - l1.length = m + 1 := ⟨k - l1.length - 1, by omega⟩
        rw [hm, List.getElem?_cons_succ] at he
        exact absurd (by rw [hy]; simp) (hl2 y (List.mem_of_getElem? he))
  have := at_ i hi
  have := at_ j hj
  omega

/-- **C53, output.** -/
theorem C53_print (fmt : α → List Char) (x : Tup τ α) :
    TaggedVector.print fmt x = ['('] ++ ((vals x).map fmt |>.intersperse ", ".toList).flatten ++ [')'] := by
  rw [TaggedVector.print]
  cases vals x with
  | nil => rfl
  | cons v l =>
    dsimp only
    rw [List.append_assoc ['('] (fmt v)]
    congr 2
    induction l generalizing v with
    | nil => simp
    | cons w l ih =>
      rw [List.flatMap_cons, List.append_assoc, ih w]
      simp

/-! ## Concrete cases -/

example : SameTags [('x', (1 : Int)), ('y', 2)] [('y', (5 : Int)), ('x', 7)] := by
  intro q; simp only [tags_cons, tags_nil, List.mem_cons, List.not_mem_nil, or_false]; exact or_comm
example : (add [('x', (1 : Int)), ('y', 2)] [('y', (5 : Int)), ('x', 7)] : Res (Tup Char Int)) =
    .ok [('x', 8), ('y', 7)] := by decide
example : assign (· * ·) [('x', (3 : Int)), ('y', 2)] (.own ()) = .ok [('x', 9), ('y', 4)] := by decide
example : TaggedVector.eq (fun (a b : Int) => a == b) [('x', 1), ('y', 2)] [('y', 2), ('z', 4), ('x', 1)] = .ok true := by
  decide
example : ofVectors (fun n : Nat => (n : Int)) ['y', 'x'] [[('x', 4)], [('z', 5), ('y', 6)]] = .ok [('y', 6), ('x', 4)] := by
  decide
/-- The hypotheses of `C53_coordinate` can be met: an element over two dimensions. -/
example : coordinates (σ := Nat) (fun q => if q = 'x' then 0 else 1)
    (fun q e => match e with | [(_, v)] => .ok ((v.toNat : Int) + if q = 'x' then 100 else 200) | _ => .ub)
    [('x', 4), ('y', 9)] = .ok [(0, 104), (1, 209)] := by decide

end DDC.Props
