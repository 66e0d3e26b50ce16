import Verif.Lemmas.SpanAccess

/-!
# C15 — element access of a chunk is a bijection between its domain and its storage
-/

namespace DDC.Props

open Tup Spec

variable {τ : Type} [DecidableEq τ]

/-- What the property demands of the accesses through a span. -/
structure AccessBijection {D : Type} (ops : SpanOps τ D) (s : Span D) : Prop where
  /-- accesses stay inside the allocation -/
  inside : ∀ e, tags e = ops.tags s.dom → ops.contains s.dom [e] = .ok true →
    ∃ p, s.access ops [e] = .ok p ∧ p < s.md.cells
  /-- distinct elements have distinct cells -/
  injective : ∀ e f p, tags e = ops.tags s.dom → tags f = ops.tags s.dom →
    s.access ops [e] = .ok p → s.access ops [f] = .ok p → e = f
  /-- every cell is hit -/
  onto : ∀ p, p < s.md.cells →
    ∃ e, tags e = ops.tags s.dom ∧ ops.contains s.dom [e] = .ok true ∧ s.access ops [e] = .ok p
  /-- the order and grouping of the tags of the arguments do not matter -/
  regroup : ∀ (es : List (Elem τ)) e, (es.flatMap tags).Perm (ops.tags s.dom) → tags e = ops.tags s.dom →
    (∀ x ∈ es, ∀ q ∈ tags x, get q x = get q e) → s.access ops es = s.access ops [e]
  /-- elements out of the domain are rejected by the assertion -/
  outside : ∀ e, tags e = ops.tags s.dom → ops.contains s.dom [e] = .ok false → s.access ops [e] = .abort
  /-- access by displacements from the front reaches the same cell -/
  byVector : ∀ e v (vs : List (Vect τ)), tags e = ops.tags s.dom → ops.contains s.dom [e] = .ok true →
    ops.distance s.dom [e] = .ok v → (vs.flatMap tags).Perm (ops.tags s.dom) →
    (∀ x ∈ vs, ∀ q ∈ tags x, get q x = get q v) → s.accessVec ops vs = s.access ops [e]

section generic

variable {D : Type} {ops : SpanOps τ D} {axesOf : D → List (τ × List U64)} {V : D → Prop}

/-- Access through a span whose offsets are a rank function of the positions. -/
private theorem bijection_of (K : SpanKind ops axesOf V) {s : Span D} (hV : V s.dom) (hw : WF ops s)
    (h0 : s.md.off = 0) (rank : List Nat → Nat)
    (hrank : ∀ is : List U64, MDSpan.InExt s.md.dims is → offset s.md.dims is = rank (is.map BitVec.toNat))
    (hinj : ∀ is js, Within ((axesOf s.dom).map (fun a => a.2.length)) is →
      Within ((axesOf s.dom).map (fun a => a.2.length)) js → rank is = rank js → is = js)
    (hsurj : ∀ p, p < s.md.cells → ∃ is, Within ((axesOf s.dom).map (fun a => a.2.length)) is ∧ rank is = p) :
    AccessBijection ops s := by
  have hnd := K.nodup _ hV
  have htg := K.tags _ hV
  have one : ∀ e, tags e = ops.tags s.dom →
      (([e] : List (Elem τ)).flatMap tags).Perm (tags (axesOf s.dom)) ∧
      ofTuples (tags (axesOf s.dom)) [e] = .ok e := by
    intro e ht
    rw [htg] at ht
    exact ⟨by simp [ht], ofTuples_one hnd ht⟩
  have mem : ∀ e, tags e = ops.tags s.dom → ops.contains s.dom [e] = .ok true → e ∈ cart (axesOf s.dom) := by
    intro e ht hc
    obtain ⟨c, c1, c2⟩ := K.contains _ hV [e] e (one e ht).1 (one e ht).2
    rw [hc] at c1
    exact c2.1 (Res.ok.inj c1).symm
  have okmem : ∀ e p, tags e = ops.tags s.dom → s.access ops [e] = .ok p → e ∈ cart (axesOf s.dom) := by
    intro e p ht ha
    by_contra hn
    rw [(K.access_not_mem hV (one e ht).1 (one e ht).2 hn).2] at ha
    cases ha
  refine ⟨?_, ?_, ?_, ?_, ?_, ?_⟩
  · intro e ht hc
    obtain ⟨v, _, _, _, _, _, a, b⟩ := K.access_mem hV hw (one e ht).1 (one e ht).2 (mem e ht hc)
    exact ⟨_, a, b⟩
  · intro e f p he hf hpe hpf
    obtain ⟨v, _, _, _, v4, v5, a, _⟩ := K.access_mem hV hw (one e he).1 (one e he).2 (okmem e p he hpe)
    obtain ⟨w, _, _, _, w4, w5, b, _⟩ := K.access_mem hV hw (one f hf).1 (one f hf).2 (okmem f p hf hpf)
    rw [hpe] at a; rw [hpf] at b
    have a := Res.ok.inj a
    have b := Res.ok.inj b
    rw [h0, hrank _ v5] at a
    rw [h0, hrank _ w5] at b
    exact picks_det v4 w4 (hinj _ _ (picks_within v4) (picks_within w4) (by omega))
  · intro p hp
    obtain ⟨is, i1, i2⟩ := hsurj p hp
    obtain ⟨e, he⟩ := picks_of_within (K.small _ hV) i1
    have hin := picks_cart he
    have ht : tags e = ops.tags s.dom := by
      rw [htg]; exact ((mem_cart_get hnd).1 hin).1
    obtain ⟨v, c, _, _, v4, v5, a, _⟩ := K.access_mem hV hw (one e ht).1 (one e ht).2 hin
    refine ⟨e, ht, c, ?_⟩
    have hpos : (vals v).map BitVec.toNat = is := by
      rw [picks_unique (K.sorted _ hV) v4 he]
      refine within_ofNat ?_ i1
      intro n hn
      obtain ⟨x, hx, rfl⟩ := List.mem_map.1 hn
      exact K.small _ hV x hx
    rw [a, h0, hrank _ v5, hpos, i2, Nat.zero_add]
  · intro es e hp ht h
    rw [htg] at hp
    have he : ofTuples (tags (axesOf s.dom)) es = .ok e := ofTuples_regroup hnd hp (htg ▸ ht) h
    by_cases hin : e ∈ cart (axesOf s.dom)
    · obtain ⟨v, _, _, _, v4, v5, a, _⟩ := K.access_mem hV hw hp he hin
      obtain ⟨w, _, _, _, w4, w5, b, _⟩ := K.access_mem hV hw (one e ht).1 (one e ht).2 hin
      rw [a, b, picks_unique (K.sorted _ hV) v4 w4]
    · rw [(K.access_not_mem hV hp he hin).2, (K.access_not_mem hV (one e ht).1 (one e ht).2 hin).2]
  · intro e ht hc
    refine (K.access_not_mem hV (one e ht).1 (one e ht).2 ?_).2
    intro hin
    obtain ⟨c, c1, c2⟩ := K.contains _ hV [e] e (one e ht).1 (one e ht).2
    rw [hc] at c1
    have := Res.ok.inj c1
    rw [c2.2 hin] at this; cases this
  · intro e v vs ht hc hv hp h
    rw [htg] at hp
    obtain ⟨w, _, w2, w3, w4, w5, a, _⟩ := K.access_mem hV hw (one e ht).1 (one e ht).2 (mem e ht hc)
    rw [hv] at w2
    obtain rfl := Res.ok.inj w2
    rw [a, K.access_vec hV hp (ofTuples_regroup hnd hp w3 h), (MDSpan.access_ok w5 hw.fits).1]

/-- A chunk constructed on a domain of fewer than `2^64` elements. -/
theorem chunk_of (K : SpanKind ops axesOf V) {d : D} (hV : V d)
    (hc : ((axesOf d).map (fun a => a.2.length)).prod < 2 ^ 64) :
    ∃ s, Span.ofDomain ops d = .ok s ∧ s.dom = d ∧
      s.md.cells = ((axesOf d).map (fun a => a.2.length)).prod ∧ WF ops s ∧ AccessBijection ops s ∧
      ∀ e f p r, tags e = ops.tags d → tags f = ops.tags d → s.access ops [e] = .ok p → s.access ops [f] = .ok r →
        Lex e f → p < r := by
  obtain ⟨n, n1, n2⟩ := K.size d hV
  rw [Nat.mod_eq_of_lt hc] at n2
  have hx := K.extents d hV
  have hvals : (vals ((axesOf d).map (fun a => (a.1, (BitVec.ofNat 64 a.2.length : I64))))).map BitVec.toNat =
      (axesOf d).map (fun a => a.2.length) := by
    rw [vals, List.map_map, List.map_map]
    refine List.map_congr_left ?_
    intro a ha
    have := K.small _ hV a ha
    simp only [Function.comp, BitVec.toNat_ofNat]
    omega
  generalize hxs : vals ((axesOf d).map (fun a => (a.1, (BitVec.ofNat 64 a.2.length : I64)))) = xs at hvals
  have hmk : Span.ofDomain ops d = .ok ⟨⟨0, MDSpan.layoutRight xs, n.toNat⟩, d⟩ := by
    simp [Span.ofDomain, n1, hx, hxs]
  have hfits : Fits ⟨0, MDSpan.layoutRight xs, n.toNat⟩ := by
    refine MDSpan.fits_layoutRight ?_ (by rw [hvals]; exact hc)
    rw [MDSpan.toNat_prod, hvals, Nat.mod_eq_of_lt hc, n2]
  have hwf : WF ops ⟨⟨0, MDSpan.layoutRight xs, n.toNat⟩, d⟩ :=
    ⟨⟨_, hx, by rw [MDSpan.map_fst_layoutRight, hxs]⟩, hfits⟩
  have hrank : ∀ is : List U64, MDSpan.InExt (MDSpan.layoutRight xs) is →
      offset (MDSpan.layoutRight xs) is = radix ((axesOf d).map (fun a => a.2.length)) (is.map BitVec.toNat) := by
    intro is h
    have hne := MDSpan.inExt_pos h
    rw [← hvals]
    refine (MDSpan.layoutRight_ok ?_ (by rw [hvals]; exact hc)).2 is
    intro m hm
    rw [← MDSpan.map_fst_layoutRight xs] at hm
    obtain ⟨y, hy, rfl⟩ := List.mem_map.1 hm
    exact hne y hy
  refine ⟨_, hmk, rfl, n2, hwf, ?_, ?_⟩
  · exact bijection_of K (s := ⟨⟨0, MDSpan.layoutRight xs, n.toNat⟩, d⟩) hV hwf rfl _ hrank
      (fun is js h h' => radix_inj h h') (fun p hp => radix_surj (by rw [← n2]; exact hp))
  · intro e f p r he hf hpe hpf hl
    rw [K.tags _ hV] at he hf
    have hnd := K.nodup _ hV
    have okmem : ∀ e p, tags e = tags (axesOf d) →
        Span.access ops ⟨⟨0, MDSpan.layoutRight xs, n.toNat⟩, d⟩ [e] = .ok p → e ∈ cart (axesOf d) := by
      intro e p ht ha
      by_contra hn
      rw [(K.access_not_mem (s := ⟨⟨0, MDSpan.layoutRight xs, n.toNat⟩, d⟩) (es := [e]) hV (by simp [ht]) (ofTuples_one hnd ht) hn).2] at ha
      cases ha
    obtain ⟨v, _, _, _, v4, v5, a, _⟩ := K.access_mem (es := [e]) hV hwf (by simp [he]) (ofTuples_one hnd he) (okmem e p he hpe)
    obtain ⟨w, _, _, _, w4, w5, b, _⟩ := K.access_mem (es := [f]) hV hwf (by simp [hf]) (ofTuples_one hnd hf) (okmem f r hf hpf)
    rw [hpe] at a; rw [hpf] at b
    have a : p = 0 + offset (MDSpan.layoutRight xs) (vals v) := Res.ok.inj a
    have b : r = 0 + offset (MDSpan.layoutRight xs) (vals w) := Res.ok.inj b
    rw [hrank _ v5] at a
    rw [hrank _ w5] at b
    have : radix ((axesOf d).map (fun a => a.2.length)) ((vals v).map BitVec.toNat) <
        radix ((axesOf d).map (fun a => a.2.length)) ((vals w).map BitVec.toNat) :=
      radix_lex (picks_within v4) (picks_within w4) (picks_lex (K.sorted _ hV) v4 w4 hl)
    omega

/-- A span over a column-major array of the right extents. -/
private theorem left_of (K : SpanKind ops axesOf V) {d : D} (hV : V d)
    (hc : ((axesOf d).map (fun a => a.2.length)).prod < 2 ^ 64) {x : Vect τ} (hx : ops.extents d = .ok x)
    {n : U64} (hn : ops.size d = .ok n) :
    ∃ s, Span.ofMdspan ops ⟨0, MDSpan.layoutLeft 1 (vals x), n.toNat⟩ d = .ok s ∧ s.dom = d ∧
      s.md.cells = ((axesOf d).map (fun a => a.2.length)).prod ∧ WF ops s ∧ AccessBijection ops s := by
  obtain ⟨n', n1, n2⟩ := K.size d hV
  rw [hn] at n1
  obtain rfl := Res.ok.inj n1
  rw [Nat.mod_eq_of_lt hc] at n2
  have hx' := K.extents d hV
  rw [hx] at hx'
  have hvals : (vals x).map BitVec.toNat = (axesOf d).map (fun a => a.2.length) := by
    rw [Res.ok.inj hx', vals, List.map_map, List.map_map]
    refine List.map_congr_left ?_
    intro a ha
    have := K.small _ hV a ha
    simp only [Function.comp, BitVec.toNat_ofNat]
    omega
  have hmk : Span.ofMdspan ops ⟨0, MDSpan.layoutLeft 1 (vals x), n.toNat⟩ d =
      .ok ⟨⟨0, MDSpan.layoutLeft 1 (vals x), n.toNat⟩, d⟩ := by
    have hl : (MDSpan.layoutLeft 1 (vals x)).length = x.length := by
      rw [← List.length_map (f := Prod.fst), MDSpan.map_fst_layoutLeft]; simp [vals]
    simp only [Span.ofMdspan, hx, Res.ok_bind, hl, decide_true, Res.guardIll_true, MDSpan.map_fst_layoutLeft,
      Res.guardAbort_true, Res.pure_eq]
  have hfits : Fits ⟨0, MDSpan.layoutLeft 1 (vals x), n.toNat⟩ := by
    refine MDSpan.fits_layoutLeft ?_ (by rw [hvals]; exact hc)
    rw [MDSpan.toNat_prod, hvals, Nat.mod_eq_of_lt hc, n2]
  have hwf : WF ops ⟨⟨0, MDSpan.layoutLeft 1 (vals x), n.toNat⟩, d⟩ :=
    ⟨⟨_, hx, by rw [MDSpan.map_fst_layoutLeft]⟩, hfits⟩
  have hrank : ∀ is : List U64, MDSpan.InExt (MDSpan.layoutLeft 1 (vals x)) is →
      offset (MDSpan.layoutLeft 1 (vals x)) is =
        radixL ((axesOf d).map (fun a => a.2.length)) (is.map BitVec.toNat) := by
    intro is h
    have hne := MDSpan.inExt_pos h
    rw [← hvals]
    have h1 : (1 : U64).toNat = 1 := rfl
    have := (MDSpan.layoutLeft_ok (acc := 1) (ns := vals x) (by
      intro m hm
      rw [← MDSpan.map_fst_layoutLeft 1 (vals x)] at hm
      obtain ⟨y, hy, rfl⟩ := List.mem_map.1 hm
      exact hne y hy) (by simp) (by rw [hvals, h1]; omega)).2 is
    rw [this, h1, Nat.one_mul]
  refine ⟨_, hmk, rfl, n2, hwf, ?_⟩
  exact bijection_of K (s := ⟨⟨0, MDSpan.layoutLeft 1 (vals x), n.toNat⟩, d⟩) hV hwf rfl _ hrank
      (fun is js h h' => radixL_inj h h') (fun p hp => radixL_surj (by rw [← n2]; exact hp))

end generic

/-- **C15, chunks on contiguous domains.**  A chunk on a valid domain of fewer than `2^64` elements has
as many cells as its domain has elements, and access is a bijection; cells are in row-major order. -/
theorem C15_chunk (d : Dom τ) (hd : Valid d) (hc : card d < 2 ^ 64) :
    ∃ s, Span.ofDomain Dom.spanOps d = .ok s ∧ s.dom = d ∧ s.md.cells = card d ∧
      AccessBijection Dom.spanOps s ∧
      ∀ e f p r, tags e = tags d → tags f = tags d → s.access Dom.spanOps [e] = .ok p →
        s.access Dom.spanOps [f] = .ok r → Lex e f → p < r := by
  rw [card_eq hd.1] at hc ⊢
  obtain ⟨s, h1, h2, h3, _, h5, h6⟩ := chunk_of spanKind_dom hd hc
  exact ⟨s, h1, h2, h3, h5, h6⟩

/-- **C15, chunks on strided domains.** -/
theorem C15_chunk_strided (d : SDom τ) (hd : SSafe d) (hc : scard d < 2 ^ 64) :
    ∃ s, Span.ofDomain SDom.spanOps d = .ok s ∧ s.dom = d ∧ s.md.cells = scard d ∧
      AccessBijection SDom.spanOps s ∧
      ∀ e f p r, tags e = tags d → tags f = tags d → s.access SDom.spanOps [e] = .ok p →
        s.access SDom.spanOps [f] = .ok r → Lex e f → p < r := by
  rw [scard_eq hd.1.1] at hc ⊢
  obtain ⟨s, h1, h2, h3, _, h5, h6⟩ := chunk_of spanKind_strided hd hc
  exact ⟨s, h1, h2, h3, h5, h6⟩

/-- **C15, chunks on sparse domains.** -/
theorem C15_chunk_sparse (d : SpDom τ) (hd : SpValid d) (hc : (d.map (fun p => p.2.length)).prod < 2 ^ 64) :
    ∃ s, Span.ofDomain SpDom.spanOps d = .ok s ∧ s.dom = d ∧ s.md.cells = (d.map (fun p => p.2.length)).prod ∧
      AccessBijection SpDom.spanOps s ∧
      ∀ e f p r, tags e = tags d → tags f = tags d → s.access SpDom.spanOps [e] = .ok p →
        s.access SpDom.spanOps [f] = .ok r → Lex e f → p < r := by
  obtain ⟨s, h1, h2, h3, _, h5, h6⟩ := chunk_of spanKind_sparse hd hc
  exact ⟨s, h1, h2, h3, h5, h6⟩

/-- **C15, column-major spans** over the three kinds of supports (spans built on a `layout_left`
mdspan or Kokkos view with the extents of the support). -/
theorem C15_left (d : Dom τ) (hd : Valid d) (hc : card d < 2 ^ 64) {x : Vect τ} {n : U64}
    (hx : Dom.extents d = .ok x) (hn : Dom.size d = .ok n) :
    ∃ s, Span.ofMdspan Dom.spanOps ⟨0, MDSpan.layoutLeft 1 (vals x), n.toNat⟩ d = .ok s ∧ s.dom = d ∧
      s.md.cells = card d ∧ AccessBijection Dom.spanOps s := by
  rw [card_eq hd.1] at hc ⊢
  obtain ⟨s, h1, h2, h3, _, h5⟩ := left_of spanKind_dom hd hc hx hn
  exact ⟨s, h1, h2, h3, h5⟩

@[inherit_doc C15_left]
theorem C15_left_strided (d : SDom τ) (hd : SSafe d) (hc : scard d < 2 ^ 64) {n : U64}
    (hn : SDom.size d = .ok n) :
    ∃ s, Span.ofMdspan SDom.spanOps ⟨0, MDSpan.layoutLeft 1 (vals (SDom.extents d)), n.toNat⟩ d = .ok s ∧
      s.dom = d ∧ s.md.cells = scard d ∧ AccessBijection SDom.spanOps s := by
  rw [scard_eq hd.1.1] at hc ⊢
  obtain ⟨s, h1, h2, h3, _, h5⟩ := left_of spanKind_strided hd hc rfl hn
  exact ⟨s, h1, h2, h3, h5⟩

@[inherit_doc C15_left]
theorem C15_left_sparse (d : SpDom τ) (hd : SpValid d) (hc : (d.map (fun p => p.2.length)).prod < 2 ^ 64) :
    ∃ s, Span.ofMdspan SpDom.spanOps ⟨0, MDSpan.layoutLeft 1 (vals (SpDom.extents d)), (SpDom.size d).toNat⟩ d = .ok s ∧
      s.dom = d ∧ s.md.cells = (d.map (fun p => p.2.length)).prod ∧ AccessBijection SpDom.spanOps s := by
  obtain ⟨s, h1, h2, h3, _, h5⟩ := left_of spanKind_sparse hd hc rfl rfl
  exact ⟨s, h1, h2, h3, h5⟩

/-- **C15, reading after writing.**  Through any span with bijective access, a write succeeds at each
element of the support; reading the same element, passed in any order of tags, gives the value written and
the other elements keep theirs. -/
theorem C15_read_after_write {D : Type} (ops : SpanOps τ D) (s : Span D) (h : AccessBijection ops s)
    {α : Type} (mem : List α) (hm : mem.length = s.md.cells) (x : α) (e : Elem τ) (he : tags e = ops.tags s.dom)
    (hin : ops.contains s.dom [e] = .ok true) :
    ∃ mem', (s.access ops [e] >>= fun p => Span.write mem p x) = .ok mem' ∧ mem'.length = mem.length ∧
      (∀ es : List (Elem τ), (es.flatMap tags).Perm (ops.tags s.dom) → (∀ y ∈ es, ∀ q ∈ tags y, get q y = get q e) →
        (s.access ops es >>= fun p => Span.read mem' p) = .ok x) ∧
      ∀ f, tags f = ops.tags s.dom → ops.contains s.dom [f] = .ok true → f ≠ e →
        (s.access ops [f] >>= fun p => Span.read mem' p) = (s.access ops [f] >>= fun p => Span.read mem p) := by
  obtain ⟨p, p1, p2⟩ := h.inside e he hin
  refine ⟨mem.set p x, ?_, by simp, ?_, ?_⟩
  · simp [p1, Span.write, hm, p2]
  · intro es hes hge
    rw [h.regroup es e hes he hge, p1]
    simp [Span.read, hm, p2]
  · intro f hf hfin hne
    obtain ⟨r, r1, r2⟩ := h.inside f hf hfin
    rw [r1]
    have : p ≠ r := by
      rintro rfl
      exact hne (h.injective f e p hf he r1 p1)
    simp [Span.read, List.getElem?_set_ne this]

/-- A span over a given array has the domain and the array; there must be as many extents as dimensions,
and they must be those of the domain. -/
theorem C15_mdspan (m : MDSpan) (d : D) {x : Vect τ} (hx : ops.extents d = .ok x) :
    (m.dims.map Prod.fst = vals x → Span.ofMdspan ops m d = .ok ⟨m, d⟩) ∧
    (m.dims.length = x.length → m.dims.map Prod.fst ≠ vals x → Span.ofMdspan ops m d = .abort) ∧
    (m.dims.length ≠ x.length → Span.ofMdspan ops m d = .ill) := by
  refine ⟨fun h => ?_, fun h h' => ?_, fun h => ?_⟩
  · have hl : m.dims.length = x.length := by
      rw [← List.length_map (f := Prod.fst), h]; simp [vals]
    simp only [Span.ofMdspan, hx, Res.ok_bind, hl, decide_true, Res.guardIll_true, h, Res.guardAbort_true, Res.pure_eq]
  · simp only [Span.ofMdspan, hx, Res.ok_bind, h, decide_true, Res.guardIll_true, h', decide_false]
    rfl
  · simp only [Span.ofMdspan, hx, Res.ok_bind, h, decide_false]
    rfl

/-- **C15 fails for `2^64` elements or more**: `size()` wraps, so the allocation of a chunk on a valid
domain of `2^64` elements is empty and the access to its first element is out of bounds. -/
theorem C15_wraps : ∃ (d : Dom Char) (s : Span (Dom Char)), Valid d ∧ Span.ofDomain Dom.spanOps d = .ok s ∧
    s.md.cells = 0 ∧ Dom.contains d [Dom.front d] = .ok true ∧ s.access Dom.spanOps [Dom.front d] = .ub := by
  refine ⟨[('x', (0, 0x100000000)), ('y', (0, 0x100000000))],
    ⟨⟨0, [(0x100000000, 0x100000000), (0x100000000, 1)], 0⟩, [('x', (0, 0x100000000)), ('y', (0, 0x100000000))]⟩,
    ?_, by decide, rfl, by decide, by decide⟩
  refine ⟨by decide, ?_⟩
  intro q hq
  simp only [tags, List.map_cons, List.map_nil, List.mem_cons, List.not_mem_nil, or_false] at hq
  rcases hq with rfl | rfl <;> decide

/-! Non-vacuity: a chunk on a domain with two dimensions, and the cells of two of its elements. -/
example : Valid ([('x', (3, 5)), ('y', (10, 13))] : Dom Char) ∧
    card ([('x', (3, 5)), ('y', (10, 13))] : Dom Char) < 2 ^ 64 := by
  refine ⟨⟨by decide, ?_⟩, by decide⟩
  intro q hq
  simp only [tags, List.map_cons, List.map_nil, List.mem_cons, List.not_mem_nil, or_false] at hq
  rcases hq with rfl | rfl <;> decide
example : (Span.ofDomain Dom.spanOps ([('x', (3, 5)), ('y', (10, 13))] : Dom Char) >>= fun s =>
    s.access Dom.spanOps [[('y', 12)], [('x', 4)]]) = .ok 5 := by decide
example : SSafe ([('x', (3, 4, 2))] : SDom Char) := by
  refine ⟨⟨by decide, ?_⟩, ?_⟩ <;> intro q hq <;>
    simp only [tags, List.map_cons, List.map_nil, List.mem_cons, List.not_mem_nil, or_false] at hq <;>
    subst hq
  · decide
  · left; decide
example : (Span.ofDomain SDom.spanOps ([('x', (3, 4, 2)), ('y', (0, 2, 7))] : SDom Char) >>= fun s =>
    s.access SDom.spanOps [[('x', 7), ('y', 7)]]) = .ok 5 := by decide

/-! An array of other extents. -/
example : Dom.extents ([('x', (3, 5)), ('y', (10, 13))] : Dom Char) = .ok [('x', 2), ('y', 3)] ∧
    Span.ofMdspan Dom.spanOps ⟨0, [(2, 3), (3, 1)], 6⟩ ([('x', (3, 5)), ('y', (10, 13))] : Dom Char) =
      .ok ⟨⟨0, [(2, 3), (3, 1)], 6⟩, [('x', (3, 5)), ('y', (10, 13))]⟩ ∧
    Span.ofMdspan Dom.spanOps ⟨0, [(3, 2), (2, 1)], 6⟩ ([('x', (3, 5)), ('y', (10, 13))] : Dom Char) = .abort := by
  decide

end DDC.Props
