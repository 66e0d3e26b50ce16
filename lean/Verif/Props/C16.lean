import Verif.Lemmas.SpanRestrict

/-!
# C16 — slicing a span
-/

namespace DDC.Props

open Tup Spec

variable {τ : Type} [DecidableEq τ]

/-- The components of `e` are values of the dimensions of the support. -/
def ElementOf {D : Type} (axesOf : D → List (τ × List U64)) (d : D) (e : Elem τ) : Prop :=
  (tags e).Nodup ∧ ∀ q x, get q e = .ok x → ∃ l, get q (axesOf d) = .ok l ∧ x ∈ l

/-- The components of `c` are the positions of those of `e` in the dimensions of the support. -/
def PositionOf {D : Type} (axesOf : D → List (τ × List U64)) (d : D) (c : Vect τ) (e : Elem τ) : Prop :=
  tags c = tags e ∧ ∀ q l x, get q (axesOf d) = .ok l → get q e = .ok x →
    ∃ i : I64, get q c = .ok i ∧ l[i.toNat]? = some x

/-- The tags of the support that are not in `qs`, in the same order. -/
def others {D : Type} (ops : SpanOps τ D) (d : D) (qs : List τ) : List τ := (ops.tags d).filter (fun q => decide (q ∉ qs))

/-- What the property demands of slices by elements and displacements. -/
structure SliceLaws {D : Type} (ops : SpanOps τ D) (axesOf : D → List (τ × List U64)) (V : D → Prop) (s : Span D) : Prop where
  /-- `span[e](f...) = span(e, f...)`, on the support without the dimensions of `e`; the slice is again a
  well-formed span -/
  element : ∀ e, ElementOf axesOf s.dom e →
    ∃ s', s.slice ops e = .ok s' ∧ ops.select (others ops s.dom (tags e)) s.dom = .ok s'.dom ∧ V s'.dom ∧ WF ops s' ∧
      ∀ fs : List (Elem τ), (fs.flatMap tags).Perm (others ops s.dom (tags e)) →
        s'.access ops fs = s.access ops (e :: fs)
  /-- an element that is not in the support is rejected by the assertion -/
  outside : ∀ e q x l, (tags e).Nodup → (∀ q ∈ tags e, q ∈ ops.tags s.dom) → get q e = .ok x →
    get q (axesOf s.dom) = .ok l → x ∉ l → s.slice ops e = .abort
  /-- slicing by a displacement is slicing by the element at this displacement -/
  displacement : ∀ e c, ElementOf axesOf s.dom e → PositionOf axesOf s.dom c e →
    s.sliceVec ops c = s.slice ops e
  /-- displacements beyond the extents are rejected by the assertion -/
  beyond : ∀ c q i l, (∀ q ∈ tags c, q ∈ ops.tags s.dom) → get q c = .ok i → get q (axesOf s.dom) = .ok l →
    (l.length : Int) ≤ i.toInt → s.sliceVec ops c = .abort
  /-- slices nested in any order are the same -/
  nested : ∀ e f, ElementOf axesOf s.dom e → ElementOf axesOf s.dom f → (∀ q ∈ tags e, q ∉ tags f) →
    ∃ s1 s12 s2 s21, s.slice ops e = .ok s1 ∧ s1.slice ops f = .ok s12 ∧ s.slice ops f = .ok s2 ∧
      s2.slice ops e = .ok s21 ∧ s12.dom = s21.dom ∧
      ops.select (others ops s.dom (tags e ++ tags f)) s.dom = .ok s12.dom ∧
      ∀ gs : List (Elem τ), (gs.flatMap tags).Perm (others ops s.dom (tags e ++ tags f)) →
        s12.access ops gs = s.access ops (e :: f :: gs) ∧ s21.access ops gs = s.access ops (e :: f :: gs)

section generic

variable {D : Type} {ops : SpanOps τ D} {axesOf : D → List (τ × List U64)} {V : D → Prop}

/-- Selecting twice is selecting once. -/
private def SelectTwice (ops : SpanOps τ D) (V : D → Prop) : Prop :=
  ∀ d d1 : D, ∀ qs ps : List τ, V d → qs.Nodup → ps.Nodup → (∀ q ∈ qs, q ∈ ops.tags d) → (∀ q ∈ ps, q ∈ qs) →
    ops.select qs d = .ok d1 → ops.select ps d1 = ops.select ps d

private theorem access_swap (K : SpanKind ops axesOf V) {s : Span D} (hV : V s.dom) (hw : WF ops s)
    {es es' : List (Elem τ)} (hp : (es.flatMap tags).Perm (tags (axesOf s.dom))) (hpp : es.Perm es') :
    s.access ops es = s.access ops es' := by
  have hnd := K.nodup _ hV
  have hp' : (es'.flatMap tags).Perm (tags (axesOf s.dom)) := (hpp.flatMap_right _).symm.trans hp
  obtain ⟨e, e1, e2, e3⟩ := ofTuples_ok (Dom.ownedOnce_of_perm hnd hp)
  have e1' : ofTuples (tags (axesOf s.dom)) es' = .ok e := by
    refine ofTuples_regroup hnd hp' e2 ?_
    intro x hx q hq
    exact (e3 q (hp'.mem_iff.1 (List.mem_flatMap.2 ⟨x, hx, hq⟩)) x (hpp.mem_iff.2 hx) hq).symm
  by_cases hin : e ∈ cart (axesOf s.dom)
  · obtain ⟨v, _, _, _, v4, _, a, _⟩ := K.access_mem hV hw hp e1 hin
    obtain ⟨w, _, _, _, w4, _, b, _⟩ := K.access_mem hV hw hp' e1' hin
    rw [a, b, picks_unique (K.sorted _ hV) v4 w4]
  · rw [(K.access_not_mem hV hp e1 hin).2, (K.access_not_mem hV hp' e1' hin).2]

private theorem laws_of (K : SpanKind ops axesOf V) (ht : SelectTwice ops V) {s : Span D} (hV : V s.dom)
    (hw : WF ops s) : SliceLaws ops axesOf V s := by
  have htg := K.tags _ hV
  have hoth : ∀ (d : D) qs, V d → others ops d qs = TypeSeq.remove (tags (axesOf d)) qs := by
    intro d qs h
    rw [TypeSeq.remove_eq, others, K.tags _ h]
  have sub : ∀ (d : D) e, ElementOf axesOf d e → ∀ q ∈ tags e, q ∈ tags (axesOf d) := by
    intro d e he q hq
    obtain ⟨x, hx⟩ := get_ok_iff_mem_tags.2 hq
    obtain ⟨l, hl, _⟩ := he.2 q x hx
    exact mem_tags_of_get hl
  have ins : ∀ (d : D) e, ElementOf axesOf d e →
      ∀ q x l, get q e = .ok x → get q (axesOf d) = .ok l → x ∈ l := by
    intro d e he q x l hx hl
    obtain ⟨l', hl', h⟩ := he.2 q x hx
    rw [hl] at hl'
    obtain rfl := Res.ok.inj hl'
    exact h
  have elt : ∀ (s : Span D), V s.dom → WF ops s → ∀ e, ElementOf axesOf s.dom e →
      ∃ s', s.slice ops e = .ok s' ∧ ops.select (others ops s.dom (tags e)) s.dom = .ok s'.dom ∧ V s'.dom ∧ WF ops s' ∧
      ∀ fs : List (Elem τ), (fs.flatMap tags).Perm (others ops s.dom (tags e)) →
        s'.access ops fs = s.access ops (e :: fs) := by
    intro s hV hw e he
    rw [hoth _ _ hV]
    obtain ⟨s', a1, a2, a3, a4, _, a6⟩ := K.slice_ok hV hw he.1 (sub _ e he) (ins _ e he)
    exact ⟨s', a1, a4, a2, a3, a6⟩
  refine ⟨elt s hV hw, ?_, ?_, ?_, ?_⟩
  · intro e q x l h1 h2 h3 h4 h5
    exact K.slice_outside hV h1 (fun q hq => htg ▸ h2 q hq) h3 h4 h5
  · intro e c he hc
    refine (K.slice_eq hV he.1 (sub _ e he) hc.1 ?_).symm
    intro q l hq hl
    obtain ⟨x, hx⟩ := get_ok_iff_mem_tags.2 hq
    obtain ⟨i, h1, h2⟩ := hc.2 q l x hl hx
    exact ⟨i, x, h1, hx, h2⟩
  · intro c q i l h1 h2 h3 h4
    exact K.sliceVec_beyond hV (fun q hq => htg ▸ h1 q hq) h2 h3 h4
  · have two : ∀ e f, ElementOf axesOf s.dom e → ElementOf axesOf s.dom f → (∀ q ∈ tags e, q ∉ tags f) →
        ∃ s1 s12, s.slice ops e = .ok s1 ∧ s1.slice ops f = .ok s12 ∧
          ops.select (others ops s.dom (tags e ++ tags f)) s.dom = .ok s12.dom ∧
          ∀ gs : List (Elem τ), (gs.flatMap tags).Perm (others ops s.dom (tags e ++ tags f)) →
            s12.access ops gs = s.access ops (e :: f :: gs) := by
      intro e f he hf hd
      obtain ⟨s1, a1, a2, a3, a4, a5⟩ := elt s hV hw e he
      have hndo : (others ops s.dom (tags e)).Nodup := by
        rw [others, htg]; exact (K.nodup _ hV).filter _
      have hmo : ∀ q, q ∈ others ops s.dom (tags e) ↔ q ∈ tags (axesOf s.dom) ∧ q ∉ tags e := by
        intro q; rw [others, List.mem_filter, htg, decide_eq_true_eq]
      obtain ⟨d1, b1, _, b3, b4⟩ := K.select _ hV _ hndo (fun q hq => ((hmo q).1 hq).1)
      rw [a2] at b1
      obtain rfl := Res.ok.inj b1
      have hf1 : ElementOf axesOf s1.dom f := by
        refine ⟨hf.1, fun q x hx => ?_⟩
        obtain ⟨l, hl, hxl⟩ := hf.2 q x hx
        refine ⟨l, ?_, hxl⟩
        rw [b4 q ((hmo q).2 ⟨mem_tags_of_get hl, fun h => hd q h (mem_tags_of_get hx)⟩), hl]
      obtain ⟨s12, c1, c2, c3, c4, c5⟩ := elt s1 a3 a4 f hf1
      have hoo : others ops s1.dom (tags f) = others ops s.dom (tags e ++ tags f) := by
        rw [others, K.tags _ a3, b3]
        simp only [others, List.filter_filter]
        refine List.filter_congr ?_
        intro q _
        simp only [List.mem_append, not_or, Bool.decide_and]
        exact Bool.and_comm _ _
      rw [hoo] at c2 c5
      refine ⟨s1, s12, a1, c1, ?_, ?_⟩
      · rw [← c2]
        refine (ht s.dom s1.dom _ _ hV hndo ?_ (fun q hq => by rw [htg]; exact ((hmo q).1 hq).1) ?_ a2).symm
        · rw [others, htg]; exact (K.nodup _ hV).filter _
        · intro q hq
          rw [others, List.mem_filter, htg, decide_eq_true_eq, List.mem_append, not_or] at hq
          exact (hmo q).2 ⟨hq.1, hq.2.1⟩
      · intro gs hgs
        rw [c5 gs hgs]
        refine a5 (f :: gs) ?_
        rw [List.flatMap_cons]
        refine (List.Perm.append_left _ hgs).trans ?_
        refine (List.perm_ext_iff_of_nodup ?_ hndo).2 ?_
        · refine List.nodup_append.2 ⟨hf.1, by rw [others, htg]; exact (K.nodup _ hV).filter _, ?_⟩
          intro q h1 b h2 hqb
          subst hqb
          rw [others, List.mem_filter, decide_eq_true_eq, List.mem_append, not_or] at h2
          exact h2.2.2 h1
        · intro q
          rw [List.mem_append, hmo, others, List.mem_filter, htg, decide_eq_true_eq, List.mem_append, not_or]
          constructor
          · rintro (h | h)
            · exact ⟨sub _ f hf q h, fun h' => hd q h' h⟩
            · exact ⟨h.1, h.2.1⟩
          · intro h
            by_cases h' : q ∈ tags f
            · exact .inl h'
            · exact .inr ⟨h.1, h.2, h'⟩
    intro e f he hf hd
    obtain ⟨s1, s12, a1, a2, a3, a4⟩ := two e f he hf hd
    obtain ⟨s2, s21, b1, b2, b3, b4⟩ := two f e hf he (fun q hq hq' => hd q hq' hq)
    have hcomm : others ops s.dom (tags f ++ tags e) = others ops s.dom (tags e ++ tags f) := by
      refine List.filter_congr ?_
      intro q _
      simp only [List.mem_append, or_comm]
    rw [hcomm] at b3 b4
    refine ⟨s1, s12, s2, s21, a1, a2, b1, b2, ?_, a3, ?_⟩
    · rw [a3] at b3; exact Res.ok.inj b3
    · intro gs hgs
      refine ⟨a4 gs hgs, ?_⟩
      rw [b4 gs hgs]
      refine access_swap K hV hw ?_ (List.Perm.swap _ _ _)
      rw [List.flatMap_cons, List.flatMap_cons]
      refine (List.Perm.append_left _ (List.Perm.append_left _ hgs)).trans ?_
      refine (List.perm_ext_iff_of_nodup ?_ (K.nodup _ hV)).2 ?_
      · have h2 : ∀ q, q ∈ others ops s.dom (tags e ++ tags f) → q ∉ tags e ∧ q ∉ tags f := by
          intro q h
          rw [others, List.mem_filter, decide_eq_true_eq, List.mem_append, not_or] at h
          exact h.2
        refine List.nodup_append.2 ⟨hf.1, List.nodup_append.2 ⟨he.1, by rw [others, htg]; exact (K.nodup _ hV).filter _, ?_⟩, ?_⟩
        · rintro q h1 b h3 rfl
          exact (h2 q h3).1 h1
        · rintro q h1 b h3 rfl
          rcases List.mem_append.1 h3 with h3 | h3
          · exact hd q h3 h1
          · exact (h2 q h3).2 h1
      · intro q
        rw [List.mem_append, List.mem_append, others, List.mem_filter, htg, decide_eq_true_eq, List.mem_append]
        constructor
        · rintro (h | h | h)
          · exact sub _ f hf q h
          · exact sub _ e he q h
          · exact h.1
        · intro h
          by_cases h1 : q ∈ tags f
          · exact .inl h1
          · by_cases h2 : q ∈ tags e
            · exact .inr (.inl h2)
            · exact .inr (.inr ⟨h, by tauto⟩)

end generic

private theorem twice_tup {α : Type} {d d1 : Tup τ α} {qs ps : List τ} (hsub : ∀ q ∈ qs, q ∈ tags d)
    (hps : ∀ q ∈ ps, q ∈ qs) (ht1 : tags d1 = qs) (hg1 : ∀ q ∈ qs, get q d1 = get q d) (hnd : ps.Nodup) :
    ofTuples ps [d1] = ofTuples ps [d] := by
  obtain ⟨a, a1, a2, a3⟩ := select_ok (qs := ps) (x := d1) (fun q hq => by rw [ht1]; exact hps q hq)
  obtain ⟨b, b1, b2, b3⟩ := select_ok (qs := ps) (x := d) (fun q hq => hsub q (hps q hq))
  rw [select] at a1 b1
  rw [a1, b1]
  congr 1
  refine ext_get (by rw [a2, b2]) (by rw [a2]; exact hnd) ?_
  intro q hq
  rw [a2] at hq
  rw [a3 q hq, b3 q hq, hg1 q (hps q hq)]

/-- Slices of spans on contiguous domains. -/
theorem C16_slice {s : Span (Dom τ)} (hV : Valid s.dom) (hw : WF Dom.spanOps s) :
    SliceLaws Dom.spanOps axes Valid s := by
  refine laws_of spanKind_dom ?_ hV hw
  intro d d1 qs ps hd hqs hps hsub hpq h1
  obtain ⟨r, r1, r2, r3⟩ := Dom.ofDomains_ok (qs := qs) (ds := [d]) hqs (by simpa using hd.1)
    (fun q hq => Dom.ownedOnce_singleton (hsub q hq))
  have h1 : Dom.ofDomains qs [d] = .ok d1 := h1
  rw [r1] at h1
  obtain rfl := Res.ok.inj h1
  have hg : ∀ q ∈ qs, get q r = get q d := fun q hq => r3 q hq d (by simp) (hsub q hq)
  obtain ⟨a, a1, a2, a3⟩ := Dom.ofDomains_ok (qs := ps) (ds := [r]) hps (by simpa [r2] using hqs)
    (fun q hq => Dom.ownedOnce_singleton (by rw [r2]; exact hpq q hq))
  obtain ⟨b, b1, b2, b3⟩ := Dom.ofDomains_ok (qs := ps) (ds := [d]) hps (by simpa using hd.1)
    (fun q hq => Dom.ownedOnce_singleton (hsub q (hpq q hq)))
  show Dom.ofDomains ps [r] = Dom.ofDomains ps [d]
  rw [a1, b1]
  congr 1
  refine ext_get (by rw [a2, b2]) (by rw [a2]; exact hps) ?_
  intro q hq
  rw [a2] at hq
  rw [a3 q hq r (by simp) (by rw [r2]; exact hpq q hq), b3 q hq d (by simp) (hsub q (hpq q hq)), hg q (hpq q hq)]

/-- Slices of spans on sparse domains. -/
theorem C16_slice_sparse {s : Span (SpDom τ)} (hV : SpValid s.dom) (hw : WF SpDom.spanOps s) :
    SliceLaws SpDom.spanOps id SpValid s := by
  refine laws_of spanKind_sparse ?_ hV hw
  intro d d1 qs ps hd hqs hps hsub hpq h1
  obtain ⟨r, r1, r2, r3⟩ := ofTuples_ok (qs := qs) (xs := [d]) (fun q hq => Dom.ownedOnce_singleton (hsub q hq))
  have hg : ∀ q ∈ qs, get q r = get q d := fun q hq => r3 q hq d (by simp) (hsub q hq)
  have h1 : SpDom.ofDomains qs [d] = .ok d1 := h1
  have hr : r = d1 := by
    simp only [SpDom.ofDomains, (TypeSeq.isUnique_iff qs).2 hqs, Res.guardIll_true, Res.ok_bind, r1] at h1
    exact Res.ok.inj h1
  subst hr
  show SpDom.ofDomains ps [r] = SpDom.ofDomains ps [d]
  simp only [SpDom.ofDomains, twice_tup hsub hpq r2 hg hps]

/-- Slices of spans on strided domains. -/
theorem C16_slice_strided {s : Span (SDom τ)} (hV : SSafe s.dom) (hw : WF SDom.spanOps s) :
    SliceLaws SDom.spanOps saxes SSafe s := by
  refine laws_of spanKind_strided ?_ hV hw
  intro d d1 qs ps hd hqs hps hsub hpq h1
  obtain ⟨r, r1, r2, r3⟩ := SDom.ofDomains_ok (qs := qs) (ds := [d]) hqs
    (fun q hq => Dom.ownedOnce_singleton (hsub q hq))
  have h1 : SDom.ofDomains qs [d] = .ok d1 := h1
  rw [r1] at h1
  obtain rfl := Res.ok.inj h1
  have hg : ∀ q ∈ qs, get q r = get q d := fun q hq => r3 q hq d (by simp) (hsub q hq)
  obtain ⟨a, a1, a2, a3⟩ := SDom.ofDomains_ok (qs := ps) (ds := [r]) hps
    (fun q hq => Dom.ownedOnce_singleton (by rw [r2]; exact hpq q hq))
  obtain ⟨b, b1, b2, b3⟩ := SDom.ofDomains_ok (qs := ps) (ds := [d]) hps
    (fun q hq => Dom.ownedOnce_singleton (hsub q (hpq q hq)))
  show SDom.ofDomains ps [r] = SDom.ofDomains ps [d]
  rw [a1, b1]
  congr 1
  refine ext_get (by rw [a2, b2]) (by rw [a2]; exact hps) ?_
  intro q hq
  rw [a2] at hq
  rw [a3 q hq r (by simp) (by rw [r2]; exact hpq q hq), b3 q hq d (by simp) (hsub q (hpq q hq)), hg q (hpq q hq)]

/-- `span[subdomain](g) = span(g)` for the elements of the subdomain, whose bounds are those of the
subdomain along its dimensions and those of the span elsewhere. -/
theorem C16_restrict {s : Span (Dom τ)} {o : Dom τ} (hV : Valid s.dom) (hw : WF Dom.spanOps s) (ho : Valid o)
    (hs : ∀ q ∈ tags o, q ∈ tags s.dom) (hin : Inside o s.dom) :
    ∃ s', s.restrict o = .ok s' ∧ tags s'.dom = tags s.dom ∧
      (∀ q ∈ tags s.dom, get q s'.dom = if q ∈ tags o then get q o else get q s.dom) ∧
      Valid s'.dom ∧ WF Dom.spanOps s' ∧
      (∀ g, tags g = tags s.dom → InBox s'.dom g → ∃ p, s'.access Dom.spanOps [g] = .ok p ∧ s.access Dom.spanOps [g] = .ok p) ∧
      (∀ g, tags g = tags s.dom → ¬ InBox s'.dom g → s'.access Dom.spanOps [g] = .abort) := by
  have K := spanKind_dom (τ := τ)
  obtain ⟨s', h1, h2, h3, h4, h5, h6⟩ := restrict_ok hV hw ho hs hin
  obtain ⟨g1, g2⟩ := restrict_get hV.1 h2
  refine ⟨s', h1, g1, g2, h3, h4, ?_, ?_⟩
  · intro g hg hb
    have hta : tags (axes s'.dom) = tags s'.dom := tags_axes _
    have hone := ofTuples_one hV.1 hg
    obtain ⟨v, _, _, _, _, _, a, _⟩ := K.access_mem h3 h4 (es := [g]) (e := g) (by simp [hta, g1, hg])
      (by rw [hta, g1]; exact hone) ((cart_inBox h3 (by rw [hg, g1])).2 hb)
    exact ⟨_, a, by rw [← h6 [g] g (by simp [hg]) hone hb, a]⟩
  · intro g hg hb
    have hta : tags (axes s'.dom) = tags s'.dom := tags_axes _
    exact (K.access_not_mem h3 (es := [g]) (e := g) (by simp [hta, g1, hg])
      (by rw [hta, g1]; exact ofTuples_one hV.1 hg) (fun h => hb ((cart_inBox h3 (by rw [hg, g1])).1 h))).2

/-- A nonempty subdomain that is not inside the domain is rejected by the assertion. -/
theorem C16_restrict_outside {s : Span (Dom τ)} {o : Dom τ} (hV : Valid s.dom) (ho : Valid o)
    (hs : ∀ q ∈ tags o, q ∈ tags s.dom) (hc : card o < 2 ^ 64) (h0 : card o ≠ 0) (hin : ¬ Inside o s.dom) :
    s.restrict o = .abort := restrict_abort hV ho hs hc h0 hin

/-- Disagreement with the statement: the assertion does not reject negative displacements, and `submdspan` is
called out of its preconditions. -/
theorem C16_negative_displacement : ∃ (s : Span (Dom Char)) (c : Vect Char), Valid s.dom ∧ WF Dom.spanOps s ∧
    tags c = ['x'] ∧ get 'x' c = .ok (-1) ∧ s.sliceVec Dom.spanOps c = .ub := by
  refine ⟨⟨⟨0, [(4, 1)], 4⟩, [('x', (0, 4))]⟩, [('x', -1)], ⟨by decide, ?_⟩, ⟨⟨[('x', 4)], by decide, by decide⟩,
    ⟨by decide, fun _ => by decide⟩⟩, by decide, by decide, by decide⟩
  intro q hq
  simp only [tags, List.map_cons, List.map_nil, List.mem_cons, List.not_mem_nil, or_false] at hq
  subst hq; decide

/-- Disagreement with the statement: an empty domain that is not inside the domain passes the assertion, and
`submdspan` is called out of its preconditions. -/
theorem C16_empty_outside : ∃ (s : Span (Dom Char)) (o : Dom Char), Valid s.dom ∧ WF Dom.spanOps s ∧ Valid o ∧
    tags o = ['x'] ∧ card o = 0 ∧ s.restrict o = .ub := by
  refine ⟨⟨⟨0, [(4, 1)], 4⟩, [('x', (0, 4))]⟩, [('x', (9, 9))], ⟨by decide, ?_⟩, ⟨⟨[('x', 4)], by decide, by decide⟩,
    ⟨by decide, fun _ => by decide⟩⟩, ⟨by decide, ?_⟩, by decide, by decide, by decide⟩
  all_goals
    intro q hq
    simp only [tags, List.map_cons, List.map_nil, List.mem_cons, List.not_mem_nil, or_false] at hq
    subst hq; decide

/-! Non-vacuity: a span on two dimensions, an element and a subdomain of it. -/
section examples

private def demo : Span (Dom Char) := ⟨⟨0, [(2, 3), (3, 1)], 6⟩, [('x', (3, 5)), ('y', (10, 13))]⟩

example : Valid demo.dom := by
  refine ⟨by decide, ?_⟩
  intro q hq
  simp only [demo, tags, List.map_cons, List.map_nil, List.mem_cons, List.not_mem_nil, or_false] at hq
  rcases hq with rfl | rfl <;> decide
example : WF Dom.spanOps demo := ⟨⟨[('x', 2), ('y', 3)], by decide, by decide⟩, ⟨by decide, fun _ => by decide⟩⟩
example : ElementOf axes demo.dom [('y', 12)] := by
  refine ⟨by decide, ?_⟩
  intro q x h
  rw [get_cons] at h
  split at h
  · rename_i hq; subst hq
    obtain rfl := Res.ok.inj h
    exact ⟨axis 10 13, by decide, by decide⟩
  · cases h
example : (demo.slice Dom.spanOps [('y', 12)] >>= fun s => s.access Dom.spanOps [[('x', 4)]]) = .ok 5 := by decide
example : Inside [('y', (11, 13))] demo.dom := by
  intro q hq
  simp only [tags, List.map_cons, List.map_nil, List.mem_cons, List.not_mem_nil, or_false] at hq
  subst hq; decide
example : (demo.restrict [('y', (11, 13))] >>= fun s => s.access Dom.spanOps [[('x', 4), ('y', 12)]]) = .ok 5 := by
  decide

end examples

end DDC.Props
