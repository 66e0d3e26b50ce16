import Verif.Lemmas.SpanKind

/-!
# Element access through spans
-/

namespace DDC

open Tup Spec

variable {τ : Type} [DecidableEq τ]

theorem ofTuples_one {e : Elem τ} {qs : List τ} (hnd : qs.Nodup) (ht : tags e = qs) : ofTuples qs [e] = .ok e := by
  obtain ⟨r, r1, r2, r3⟩ := select_ok (qs := qs) (x := e) (fun q hq => by rw [ht]; exact hq)
  rw [select] at r1
  rw [r1]
  congr 1
  refine ext_get (by rw [r2, ht]) (by rw [r2]; exact hnd) ?_
  intro q hq
  exact r3 q (r2 ▸ hq)

theorem ofTuples_regroup {α : Type} {es : List (Tup τ α)} {e : Tup τ α} {qs : List τ} (hnd : qs.Nodup)
    (hp : (es.flatMap tags).Perm qs) (ht : tags e = qs) (h : ∀ x ∈ es, ∀ q ∈ tags x, get q x = get q e) :
    ofTuples qs es = .ok e := by
  obtain ⟨r, h1, h2, h3⟩ := ofTuples_ok (Dom.ownedOnce_of_perm hnd hp)
  rw [h1]
  congr 1
  refine ext_get (by rw [h2, ht]) (by rw [h2]; exact hnd) ?_
  intro q hq
  rw [h2] at hq
  obtain ⟨x, hx, hqx⟩ := List.mem_flatMap.1 (hp.mem_iff.2 hq)
  rw [h3 q hq x hx hqx, h x hx q hqx]

omit [DecidableEq τ] in
theorem picks_cart {ax : List (τ × List U64)} {is : List I64} {e : Elem τ} (h : Picks ax is e) : e ∈ cart ax := by
  induction ax generalizing is e with
  | nil =>
    cases is <;> cases e <;> simp only [Picks] at h
    simp [cart]
  | cons a ax ih =>
    obtain ⟨t, l⟩ := a
    cases is with
    | nil => cases e <;> simp only [Picks] at h
    | cons i is =>
      cases e with
      | nil => simp only [Picks] at h
      | cons p e =>
        obtain ⟨u, x⟩ := p
        obtain ⟨rfl, h1, h2⟩ := h
        simp only [cart, List.mem_flatMap, List.mem_map]
        exact ⟨x, List.mem_of_getElem? h1, e, ih h2, rfl⟩

omit [DecidableEq τ] in
/-- Positions are within the lengths of the axes. -/
theorem picks_within {ax : List (τ × List U64)} {is : List I64} {e : Elem τ} (h : Picks ax is e) :
    Within (ax.map (fun a => a.2.length)) (is.map BitVec.toNat) := by
  induction ax generalizing is e with
  | nil =>
    cases is <;> cases e <;> simp only [Picks] at h
    exact .nil
  | cons a ax ih =>
    obtain ⟨t, l⟩ := a
    cases is with
    | nil => cases e <;> simp only [Picks] at h
    | cons i is =>
      cases e with
      | nil => simp only [Picks] at h
      | cons p e =>
        obtain ⟨u, x⟩ := p
        obtain ⟨rfl, h1, h2⟩ := h
        exact .cons (List.getElem?_eq_some_iff.1 h1).1 (ih h2)

omit [DecidableEq τ] in
theorem picks_of_within {ax : List (τ × List U64)} (hs : ∀ a ∈ ax, a.2.length < 2 ^ 63) {is : List Nat}
    (h : Within (ax.map (fun a => a.2.length)) is) :
    ∃ e, Picks ax (is.map (BitVec.ofNat 64)) e := by
  induction ax generalizing is with
  | nil => cases h; exact ⟨[], trivial⟩
  | cons a ax ih =>
    obtain ⟨t, l⟩ := a
    cases h with
    | @cons _ i _ is hi hI =>
      obtain ⟨e, he⟩ := ih (fun a ha => hs a (List.mem_cons_of_mem _ ha)) hI
      have := hs (t, l) (by simp)
      simp only at this hi
      refine ⟨(t, l[i]) :: e, rfl, ?_, he⟩
      rw [BitVec.toNat_ofNat, Nat.mod_eq_of_lt (by omega)]
      exact List.getElem?_eq_getElem hi

omit [DecidableEq τ] in
/-- Positions determine the element. -/
theorem picks_det {ax : List (τ × List U64)} {is js : List I64} {e f : Elem τ} (h : Picks ax is e)
    (h' : Picks ax js f) (hij : is.map BitVec.toNat = js.map BitVec.toNat) : e = f := by
  induction ax generalizing is js e f with
  | nil =>
    cases is <;> cases e <;> cases js <;> cases f <;> simp_all [Picks]
  | cons a ax ih =>
    obtain ⟨t, l⟩ := a
    cases is with
    | nil => cases e <;> simp only [Picks] at h
    | cons i is =>
      cases js with
      | nil => simp at hij
      | cons j js =>
        cases e with
        | nil => simp only [Picks] at h
        | cons p e =>
          cases f with
          | nil => simp only [Picks] at h'
          | cons r f =>
            obtain ⟨u, x⟩ := p
            obtain ⟨v, y⟩ := r
            obtain ⟨rfl, h1, h2⟩ := h
            obtain ⟨rfl, h1', h2'⟩ := h'
            simp only [List.map_cons, List.cons.injEq] at hij
            rw [hij.1, h1'] at h1
            rw [Option.some.inj h1, ih h2 h2' hij.2]

omit [DecidableEq τ] in
/-- The element determines the positions, monotonically. -/
theorem picks_lex {ax : List (τ × List U64)} (hs : ∀ a ∈ ax, a.2.Pairwise (fun x y => x.toNat < y.toNat))
    {is js : List I64} {e f : Elem τ} (h : Picks ax is e)
    (h' : Picks ax js f) (hl : Lex e f) : LexIdx (is.map BitVec.toNat) (js.map BitVec.toNat) := by
  induction ax generalizing is js e f with
  | nil =>
    cases is <;> cases e <;> simp_all [Picks, Spec.Lex]
  | cons a ax ih =>
    obtain ⟨t, l⟩ := a
    cases is with
    | nil => cases e <;> simp only [Picks] at h
    | cons i is =>
      cases js with
      | nil => cases f <;> simp only [Picks] at h'
      | cons j js =>
        cases e with
        | nil => simp only [Picks] at h
        | cons p e =>
          cases f with
          | nil => simp only [Picks] at h'
          | cons r f =>
            obtain ⟨u, x⟩ := p
            obtain ⟨v, y⟩ := r
            obtain ⟨rfl, h1, h2⟩ := h
            obtain ⟨rfl, h1', h2'⟩ := h'
            simp only [List.map_cons, LexIdx]
            have hsl := hs (v, l) (by simp)
            simp only at hsl
            have hmono : ∀ {i j : Nat} {x y : U64}, l[i]? = some x → l[j]? = some y → i < j → x.toNat < y.toNat := by
              intro i j x y hi hj hij
              obtain ⟨a1, rfl⟩ := List.getElem?_eq_some_iff.1 hi
              obtain ⟨a2, rfl⟩ := List.getElem?_eq_some_iff.1 hj
              exact List.pairwise_iff_getElem.1 hsl _ _ _ _ hij
            rcases hl with hl | ⟨rfl, hl⟩
            · left
              rcases Nat.lt_trichotomy i.toNat j.toNat with h | h | h
              · exact h
              · rw [h, h1'] at h1; injection h1 with h1; subst h1; omega
              · have := hmono h1' h1 h; omega
            · right
              refine ⟨?_, ih (fun a ha => hs a (List.mem_cons_of_mem _ ha)) h2 h2' hl⟩
              rcases Nat.lt_trichotomy i.toNat j.toNat with h | h | h
              · have := hmono h1 h1' h; omega
              · exact h
              · have := hmono h1' h1 h; omega

omit [DecidableEq τ] in
/-- The element determines the positions. -/
theorem picks_unique {ax : List (τ × List U64)} (hs : ∀ a ∈ ax, a.2.Pairwise (fun x y => x.toNat < y.toNat))
    {is js : List I64} {e : Elem τ} (h : Picks ax is e) (h' : Picks ax js e) : is = js := by
  induction ax generalizing is js e with
  | nil => cases is <;> cases js <;> cases e <;> simp_all [Picks]
  | cons a ax ih =>
    obtain ⟨t, l⟩ := a
    cases is with
    | nil => cases e <;> simp only [Picks] at h
    | cons i is =>
      cases js with
      | nil => cases e <;> simp only [Picks] at h'
      | cons j js =>
        cases e with
        | nil => simp only [Picks] at h
        | cons p e =>
          obtain ⟨u, x⟩ := p
          obtain ⟨_, h1, h2⟩ := h
          obtain ⟨_, h1', h2'⟩ := h'
          rw [ih (fun a ha => hs a (List.mem_cons_of_mem _ ha)) h2 h2']
          congr 1
          apply BitVec.eq_of_toNat_eq
          have hsl := hs (t, l) (by simp)
          obtain ⟨a1, b1⟩ := List.getElem?_eq_some_iff.1 h1
          obtain ⟨a2, b2⟩ := List.getElem?_eq_some_iff.1 h1'
          rcases Nat.lt_trichotomy i.toNat j.toNat with h | h | h
          · have := List.pairwise_iff_getElem.1 hsl _ _ a1 a2 h
            rw [b1, b2] at this; omega
          · exact h
          · have := List.pairwise_iff_getElem.1 hsl _ _ a2 a1 h
            rw [b1, b2] at this; omega

theorem within_ofNat {ns is : List Nat} (hs : ∀ n ∈ ns, n < 2 ^ 63) (h : Within ns is) :
    (is.map (BitVec.ofNat 64)).map BitVec.toNat = is := by
  induction h with
  | nil => rfl
  | @cons n i ns is hi hI ih =>
    have := hs n (by simp)
    simp only [List.map_cons, BitVec.toNat_ofNat]
    rw [ih (fun a ha => hs a (List.mem_cons_of_mem _ ha)), Nat.mod_eq_of_lt (by omega)]

/-- A span in good order: the extents of its mdspan are those of its support and its cells are in
the allocation. -/
structure Spec.WF {D : Type} (ops : SpanOps τ D) (s : Span D) : Prop where
  exts : ∃ x, ops.extents s.dom = .ok x ∧ s.md.dims.map Prod.fst = vals x
  fits : Fits s.md

variable {D : Type} {ops : SpanOps τ D} {axesOf : D → List (τ × List U64)} {V : D → Prop}

theorem SpanKind.dims (K : SpanKind ops axesOf V) {s : Span D} (hV : V s.dom) (hw : WF ops s) :
    (s.md.dims.map Prod.fst).map BitVec.toNat = (axesOf s.dom).map (fun a => a.2.length) := by
  obtain ⟨x, h1, h2⟩ := hw.exts
  rw [K.extents _ hV] at h1
  rw [h2, ← Res.ok.inj h1, vals, List.map_map, List.map_map]
  refine List.map_congr_left ?_
  intro a ha
  have := K.small _ hV a ha
  simp only [Function.comp, BitVec.toNat_ofNat]
  omega

/-- Access at an element of the support. -/
theorem SpanKind.access_mem (K : SpanKind ops axesOf V) {s : Span D} (hV : V s.dom) (hw : WF ops s)
    {es : List (Elem τ)} {e : Elem τ} (hp : (es.flatMap Tup.tags).Perm (Tup.tags (axesOf s.dom)))
    (he : ofTuples (Tup.tags (axesOf s.dom)) es = .ok e) (hin : e ∈ cart (axesOf s.dom)) :
    ∃ v, ops.contains s.dom es = .ok true ∧ ops.distance s.dom es = .ok v ∧
      Tup.tags v = Tup.tags (axesOf s.dom) ∧ Picks (axesOf s.dom) (vals v) e ∧
      MDSpan.InExt s.md.dims (vals v) ∧
      s.access ops es = .ok (s.md.off + offset s.md.dims (vals v)) ∧
      s.md.off + offset s.md.dims (vals v) < s.md.cells := by
  obtain ⟨c, c1, c2⟩ := K.contains _ hV es e hp he
  obtain ⟨v, v1, v2, v3⟩ := K.locate _ hV es e hp he hin
  have hc : c = true := c2.2 hin
  subst hc
  have hext : MDSpan.InExt s.md.dims (vals v) := by
    rw [MDSpan.inExt_iff, K.dims hV hw]
    exact picks_within v3
  obtain ⟨a1, a2⟩ := MDSpan.access_ok hext hw.fits
  refine ⟨v, c1, v1, v2, v3, hext, ?_, a2⟩
  have hl : (ops.tags s.dom).length = (es.map List.length).sum := by
    rw [K.tags _ hV]; exact Dom.sum_length_of_perm hp
  simp only [Span.access, hl, decide_true, Res.guardIll_true, Res.ok_bind, c1, Res.guardAbort_true, v1, a1]

/-- Access out of the support. -/
theorem SpanKind.access_not_mem (K : SpanKind ops axesOf V) {s : Span D} (hV : V s.dom)
    {es : List (Elem τ)} {e : Elem τ} (hp : (es.flatMap Tup.tags).Perm (Tup.tags (axesOf s.dom)))
    (he : ofTuples (Tup.tags (axesOf s.dom)) es = .ok e) (hin : e ∉ cart (axesOf s.dom)) :
    ops.contains s.dom es = .ok false ∧ s.access ops es = .abort := by
  obtain ⟨c, c1, c2⟩ := K.contains _ hV es e hp he
  have hc : c = false := by
    cases c with
    | false => rfl
    | true => exact absurd (c2.1 rfl) hin
  subst hc
  refine ⟨c1, ?_⟩
  have hl : (ops.tags s.dom).length = (es.map List.length).sum := by
    rw [K.tags _ hV]; exact Dom.sum_length_of_perm hp
  simp only [Span.access, hl, decide_true, Res.guardIll_true, Res.ok_bind, c1, Res.guardAbort_false, Res.abort_bind]

theorem SpanKind.access_vec (K : SpanKind ops axesOf V) {s : Span D} (hV : V s.dom)
    {vs : List (Vect τ)} {v : Vect τ} (hp : (vs.flatMap Tup.tags).Perm (Tup.tags (axesOf s.dom)))
    (hv : ofTuples (Tup.tags (axesOf s.dom)) vs = .ok v) :
    s.accessVec ops vs = s.md.access (vals v) := by
  have hl : (Tup.tags (axesOf s.dom)).length = (vs.map List.length).sum := Dom.sum_length_of_perm hp
  simp only [Span.accessVec, K.tags _ hV, hl, decide_true, Res.guardIll_true, Res.ok_bind, hv]

end DDC
