import Verif.Lemmas.SpanSlice
import Verif.Props.C09

/-!
# Restriction of spans to subdomains
-/

namespace DDC

open Tup Spec Props

variable {τ : Type} [DecidableEq τ]

/-- Slicers built from bounds in the dimensions `C`. -/
def Spec.slicersIn (C : List τ) (f l : τ → U64) (q : τ) : Slicer := if q ∈ C then .range (f q) (l q) else .full

theorem joinIdx_in (C : List τ) (f l p : τ → U64) (ts : List τ) :
    joinIdx (ts.map (slicersIn C f l)) (ts.map p) = ts.map (fun q => if q ∈ C then f q + p q else p q) := by
  induction ts with
  | nil => rfl
  | cons t ts ih =>
    by_cases h : t ∈ C
    · simp only [List.map_cons, slicersIn, h, if_true, joinIdx]
      rw [← ih]
    · simp only [List.map_cons, slicersIn, h, if_false, joinIdx]
      rw [← ih]

theorem subDims_in (C : List τ) (f l ext : τ → U64) (ts : List τ) (ds : List (U64 × U64))
    (h : ds.map Prod.fst = ts.map ext) :
    (MDSpan.subDims ds (ts.map (slicersIn C f l))).map Prod.fst =
      ts.map (fun q => if q ∈ C then l q - f q else ext q) := by
  induction ts generalizing ds with
  | nil => cases ds <;> simp_all [MDSpan.subDims]
  | cons t ts ih =>
    cases ds with
    | nil => simp at h
    | cons d ds =>
      obtain ⟨n, s⟩ := d
      simp only [List.map_cons, List.cons.injEq] at h
      by_cases hC : t ∈ C
      · simp only [List.map_cons, slicersIn, hC, if_true, MDSpan.subDims, List.cons.injEq, true_and]
        exact ih ds h.2
      · simp only [List.map_cons, slicersIn, hC, if_false, MDSpan.subDims, List.cons.injEq]
        exact ⟨h.1, ih ds h.2⟩

theorem sliceOK_in (C : List τ) (f l ext : τ → U64) (ts : List τ) (ds : List (U64 × U64))
    (h : ds.map Prod.fst = ts.map ext) (hc : ∀ q ∈ ts, q ∈ C → f q ≤ l q ∧ l q ≤ ext q) :
    MDSpan.SliceOK ds (ts.map (slicersIn C f l)) := by
  induction ts generalizing ds with
  | nil =>
    cases ds with
    | nil => exact .nil
    | cons => simp at h
  | cons t ts ih =>
    cases ds with
    | nil => simp at h
    | cons d ds =>
      simp only [List.map_cons, List.cons.injEq] at h
      refine .cons ?_ (ih ds h.2 (fun q hq => hc q (List.mem_cons_of_mem _ hq)))
      by_cases hC : t ∈ C
      · simpa [slicersIn, hC, MDSpan.sliceValid, h.1] using hc t List.mem_cons_self hC
      · simp [slicersIn, hC, MDSpan.sliceValid]

theorem get_mk {α : Type} {ts : List τ} {q : τ} (g : τ → α) (h : q ∈ ts) : get q (ts.map (fun t => (t, g t))) = .ok (g q) := by
  induction ts with
  | nil => simp at h
  | cons t ts ih =>
    rw [List.map_cons, get_cons]
    by_cases hq : q = t
    · rw [if_pos hq, hq]
    · rw [if_neg hq]
      exact ih ((List.mem_cons.1 h).resolve_left hq)

omit [DecidableEq τ] in
theorem tags_mk {α : Type} (ts : List τ) (g : τ → α) : tags (ts.map (fun t => (t, g t))) = ts := by
  simp [tags, Function.comp_def]

omit [DecidableEq τ] in
theorem vals_mk {α : Type} (ts : List τ) (g : τ → α) : vals (ts.map (fun t => (t, g t))) = ts.map g := by
  simp [vals, Function.comp_def]

/-- First bound and past-the-end bound of a dimension. -/
def Spec.lo' (d : Dom τ) (q : τ) : U64 := match get q d with | .ok (b, _) => b | _ => 0
def Spec.hi' (d : Dom τ) (q : τ) : U64 := match get q d with | .ok (_, f) => f | _ => 0

theorem slicerDom_ok {o d : Dom τ} (ho : (tags o).Nodup) (hd : (tags d).Nodup) {q : τ} (hq : q ∈ tags d) :
    Span.slicerDom o d q = .ok (slicersIn (tags o) (fun q => lo' o q - lo' d q) (fun q => hi' o q - lo' d q) q) := by
  by_cases h : q ∈ tags o
  · obtain ⟨⟨b, f⟩, hb⟩ := get_ok_iff_mem_tags.2 h
    obtain ⟨⟨b', f'⟩, hb'⟩ := get_ok_iff_mem_tags.2 hq
    obtain ⟨r, r1, r2, r3⟩ := Dom.ofDomains_ok (qs := [q]) (ds := [o]) (by simp) (by simpa using ho)
      (fun p hp => Dom.ownedOnce_singleton (by simp at hp; rw [hp]; exact h))
    obtain ⟨r', s1, s2, s3⟩ := Dom.ofDomains_ok (qs := [q]) (ds := [d]) (by simp) (by simpa using hd)
      (fun p hp => Dom.ownedOnce_singleton (by simp at hp; rw [hp]; exact hq))
    have e1 : r = [(q, (b, f))] := by
      refine ext_get (by rw [r2]; rfl) (by rw [r2]; simp) ?_
      intro p hp
      rw [r2] at hp
      obtain rfl : p = q := by simpa using hp
      rw [r3 p hp o (by simp) h, hb]; simp [get_cons]
    have e2 : r' = [(q, (b', f'))] := by
      refine ext_get (by rw [s2]; rfl) (by rw [s2]; simp) ?_
      intro p hp
      rw [s2] at hp
      obtain rfl : p = q := by simpa using hp
      rw [s3 p hp d (by simp) hq, hb']; simp [get_cons]
    obtain ⟨k, k1, k2, k3⟩ := Dom.back_ok r (by rw [r2]; simp)
    have e3 : k = [(q, f - 1)] := by
      refine ext_get (by rw [k2, r2]; rfl) (by rw [k2, r2]; simp) ?_
      intro p hp
      rw [k2, r2] at hp
      obtain rfl : p = q := by simpa using hp
      rw [k3 p b f (by rw [e1]; simp [get_cons])]; simp [get_cons]
    have hs : ∀ x y : U64, Elem.sub [(q, x)] [(q, y)] = .ok [(q, x - y)] := by
      intro x y
      obtain ⟨v, v1, v2, v3⟩ := Elem.sub_spec (a := [(q, x)]) (b := [(q, y)]) (fun p => Iff.rfl)
      rw [v1]
      congr 1
      refine ext_get (by rw [v2]; rfl) (by rw [v2]; simp [tags]) ?_
      intro p hp
      rw [v2] at hp
      obtain rfl : p = q := by simpa [tags] using hp
      rw [v3 p x y (by simp [get_cons]) (by simp [get_cons])]; simp [get_cons]
    subst e1 e2 e3
    have hf : f - 1 + 1 = f := by
      have := BitVec.sub_add_cancel f 1; exact this
    simp only [Span.slicerDom, TypeSeq.present_eq_decide, h, decide_true, if_true, r1, s1, Res.ok_bind,
      Dom.front, Dom.beg, List.map_cons, List.map_nil, hs, k1, Elem.addInt, slicersIn, lo', hi', hb, hb', hf]
    simp [get_cons, Res.pure_eq]
  · simp [Span.slicerDom, TypeSeq.present_eq_decide, h, slicersIn]

theorem card_zero_of_empty {d : Dom τ} {q : τ} (hq : q ∈ tags d) (h : hi q d ≤ lo q d) : card d = 0 := by
  rw [card]
  refine SDom.prod_eq_zero.2 ?_
  refine ⟨_, List.mem_map.2 ⟨q, hq, rfl⟩, ?_⟩
  simp only [len]; omega

theorem restrict_get {d o r : Dom τ} (hd : (tags d).Nodup) (hr : Dom.restrictWith d o = .ok r) :
    tags r = tags d ∧ ∀ q ∈ tags d, get q r = if q ∈ tags o then get q o else get q d := by
  obtain ⟨r', r1, r2, r3⟩ := Dom.restrictWithCore_ok (o := o) hd
  have : r = r' := by
    cases d with
    | nil =>
      have e1 : Dom.restrictWith ([] : Dom τ) o = .ok [] := rfl
      have e2 : Dom.restrictWithCore ([] : Dom τ) o = .ok [] := rfl
      rw [e1] at hr; rw [e2] at r1
      injection hr with hr; injection r1 with r1; rw [← hr, ← r1]
    | cons p0 d0 =>
      simp only [Dom.restrictWith, Res.bind_eq_ok] at hr
      obtain ⟨_, _, _, _, _, _, _, _, h⟩ := hr
      rw [r1] at h; injection h with h; exact h.symm
  subst this
  exact ⟨r2, r3⟩

/-- The assertion of `operator[](DiscreteDomain)`. -/
theorem restrict_guard {d o : Dom τ} (hd : Valid d) (ho : Valid o) (hs : ∀ q ∈ tags o, q ∈ tags d)
    (hc : card o < 2 ^ 64 ∨ Inside o d) :
    ∃ (e : Bool) (d' : Dom τ) (c1 : Bool) (bk : Elem τ) (c2 : Bool), Dom.empty o = .ok e ∧ Dom.ofDomains (tags o) [d] = .ok d' ∧
      Dom.contains d' [Dom.front o] = .ok c1 ∧ Dom.back o = .ok bk ∧ Dom.contains d' [bk] = .ok c2 ∧
      ((e || (c1 && c2)) = true ↔ (card o = 0 ∨ Inside o d)) := by
  obtain ⟨n, n1, n2⟩ := Dom.size_ok o ho
  obtain ⟨d', r1, r2, r3⟩ := Dom.ofDomains_ok (qs := tags o) (ds := [d]) ho.1 (by simpa using hd.1)
      (fun p hp => Dom.ownedOnce_singleton (hs p hp))
  have hg : ∀ q ∈ tags o, get q d' = get q d := fun q hq => r3 q hq d (by simp) (hs q hq)
  obtain ⟨bk, k1, k2, k3⟩ := Dom.back_ok o ho.1
  have htf : tags (Dom.front o) = tags o := Dom.tags_beg o
  obtain ⟨c1, a1, a2⟩ := Dom.contains_one (d := d') (by rw [r2]; exact ho.1) (e := Dom.front o) (by rw [SameTags, htf, r2])
  obtain ⟨c2, b1, b2⟩ := Dom.contains_one (d := d') (by rw [r2]; exact ho.1) (e := bk) (by rw [SameTags, k2, r2])
  refine ⟨decide (n = 0), d', c1, bk, c2, by simp [Dom.empty, n1], r1, a1, k1, b1, ?_⟩
  have hn : n = 0 ↔ card o % 2 ^ 64 = 0 := by
    rw [← BitVec.toNat_inj, n2]; rfl
  rw [Bool.or_eq_true, Bool.and_eq_true, decide_eq_true_eq, a2, b2, hn]
  simp only [InBox, r2]
  constructor
  · rintro (h | ⟨h1, h2⟩)
    · rcases hc with hc | hc
      · exact .inl (by omega)
      · exact .inr hc
    · by_cases h0 : card o = 0
      · exact .inl h0
      · refine .inr ?_
        intro q hq
        obtain ⟨⟨b, f⟩, hb⟩ := get_ok_iff_mem_tags.2 hq
        obtain ⟨⟨b', f'⟩, hb'⟩ := get_ok_iff_mem_tags.2 (hs q hq)
        have hne : lo q o < hi q o := by
          by_contra hn
          exact h0 (card_zero_of_empty hq (by omega))
        have h1 := h1 q hq
        have h2 := h2 q hq
        rw [Dom.lo_congr (hg q hq), Dom.hi_congr (hg q hq), idx_ok (show get q (Dom.front o) = .ok b from Dom.get_beg_ok hb)] at h1
        rw [Dom.lo_congr (hg q hq), Dom.hi_congr (hg q hq), idx_ok (k3 q b f hb)] at h2
        rw [lo_ok hb, hi_ok hb] at hne ⊢
        rw [lo_ok hb', hi_ok hb'] at h1 h2 ⊢
        have hf : (f - 1).toNat = f.toNat - 1 := by
          rw [BitVec.toNat_sub]; have := f.isLt; have h1 : (1 : U64).toNat = 1 := rfl; omega
        omega
  · rintro (h | h)
    · exact .inl (by simp [h])
    · by_cases h0 : card o = 0
      · exact .inl (by simp [h0])
      · refine .inr ⟨?_, ?_⟩
        all_goals
          intro q hq
          obtain ⟨⟨b, f⟩, hb⟩ := get_ok_iff_mem_tags.2 hq
          obtain ⟨⟨b', f'⟩, hb'⟩ := get_ok_iff_mem_tags.2 (hs q hq)
          have hne : lo q o < hi q o := by
            by_contra hn
            exact h0 (card_zero_of_empty hq (by omega))
          have h1 := h q hq
          rw [lo_ok hb, hi_ok hb, lo_ok hb', hi_ok hb'] at h1
          rw [lo_ok hb, hi_ok hb] at hne
          rw [Dom.lo_congr (hg q hq), Dom.hi_congr (hg q hq), lo_ok hb', hi_ok hb']
        · rw [idx_ok (show get q (Dom.front o) = .ok b from Dom.get_beg_ok hb)]; omega
        · rw [idx_ok (k3 q b f hb)]
          have hf : (f - 1).toNat = f.toNat - 1 := by
            rw [BitVec.toNat_sub]; have := f.isLt; have h1 : (1 : U64).toNat = 1 := rfl; omega
          omega

/-- A nonempty domain that is not inside is rejected. -/
theorem restrict_abort {s : Span (Dom τ)} {o : Dom τ} (hV : Valid s.dom) (ho : Valid o)
    (hs : ∀ q ∈ tags o, q ∈ tags s.dom) (hc : card o < 2 ^ 64) (h0 : card o ≠ 0) (hin : ¬ Inside o s.dom) :
    s.restrict o = .abort := by
  obtain ⟨e, d', c1, bk, c2, g1, g2, g3, g4, g5, g6⟩ := restrict_guard hV ho hs (.inl hc)
  have hf : (e || (c1 && c2)) = false := by
    rw [Bool.eq_false_iff]
    intro h
    rcases g6.1 h with h | h
    · exact h0 h
    · exact hin h
  simp only [Span.restrict, g1, g2, g3, g4, g5, Res.ok_bind, hf, Res.guardAbort_false, Res.abort_bind]

/-- `operator[](DiscreteDomain)` for a subdomain. -/
theorem restrict_ok {s : Span (Dom τ)} {o : Dom τ} (hV : Valid s.dom) (hw : WF Dom.spanOps s) (ho : Valid o)
    (hs : ∀ q ∈ tags o, q ∈ tags s.dom) (hin : Inside o s.dom) :
    ∃ s', s.restrict o = .ok s' ∧ Dom.restrictWith s.dom o = .ok s'.dom ∧ Valid s'.dom ∧ WF Dom.spanOps s' ∧
      s'.md.cells = s.md.cells ∧
      ∀ es e, (es.flatMap tags).Perm (tags s.dom) → ofTuples (tags s.dom) es = .ok e → InBox s'.dom e →
        s'.access Dom.spanOps es = s.access Dom.spanOps es := by
  have K := spanKind_dom (τ := τ)
  have hta : ∀ d : Dom τ, tags (axes d) = tags d := fun d => tags_axes d
  have hnd := hV.1
  obtain ⟨r, hr⟩ := (C09_assertion s.dom o hV hs).1 hin
  obtain ⟨hVr, htr, _, _⟩ := C09_intersection s.dom o r hV ho hs hin hr
  obtain ⟨_, hgr⟩ := restrict_get hnd hr
  obtain ⟨e, d', c1, bk, c2, g1, g2, g3, g4, g5, g6⟩ := restrict_guard hV ho hs (.inr hin)
  have hguard := g6.2 (.inr hin)
  obtain ⟨x, hx, hdims⟩ := hw.exts
  have hx' := hx
  rw [K.extents _ hV] at hx'
  have hvx : vals x = (tags s.dom).map (extOf (axes s.dom)) := by
    rw [← Res.ok.inj hx', K.exts_eq hV, hta]
  rw [hvx] at hdims
  -- bounds, as numbers
  have hb : ∀ q ∈ tags s.dom, ∃ b f, get q s.dom = .ok (b, f) ∧ b.toNat ≤ f.toNat ∧ f.toNat - b.toNat < 2 ^ 63 ∧
      lo' s.dom q = b ∧ extOf (axes s.dom) q = f - b ∧ get q (axes s.dom) = .ok (axis b f) := by
    intro q hq
    obtain ⟨⟨b, f⟩, hb⟩ := get_ok_iff_mem_tags.2 hq
    have h1 := hV.2 q hq
    rw [len, lo_ok hb, hi_ok hb] at h1
    have hax : get q (axes s.dom) = .ok (axis b f) := by
      simp only [axes]
      rw [get_map_snd q (fun p : U64 × U64 => axis p.1 p.2) s.dom, hb]; rfl
    refine ⟨b, f, hb, h1.1, by omega, by rw [lo', hb], ?_, hax⟩
    rw [extOf_get hax, length_axis]
    apply BitVec.eq_of_toNat_eq
    rw [BitVec.toNat_ofNat, BitVec.toNat_sub]
    have := f.isLt; have := b.isLt
    omega
  have hbo : ∀ q ∈ tags o, ∃ b f b' f', get q o = .ok (b, f) ∧ get q s.dom = .ok (b', f') ∧
      b'.toNat ≤ b.toNat ∧ b.toNat ≤ f.toNat ∧ f.toNat ≤ f'.toNat := by
    intro q hq
    obtain ⟨⟨b, f⟩, hb⟩ := get_ok_iff_mem_tags.2 hq
    obtain ⟨⟨b', f'⟩, hb'⟩ := get_ok_iff_mem_tags.2 (hs q hq)
    have h1 := ho.2 q hq
    have h2 := hin q hq
    rw [lo_ok hb, hi_ok hb] at h1 h2
    rw [lo_ok hb', hi_ok hb'] at h2
    exact ⟨b, f, b', f', hb, hb', h2.1, h1.1, h2.2⟩
  let fq : τ → U64 := fun q => lo' o q - lo' s.dom q
  let lq : τ → U64 := fun q => hi' o q - lo' s.dom q
  have hsubn : ∀ a b : U64, b.toNat ≤ a.toNat → (a - b).toNat = a.toNat - b.toNat := by
    intro a b h
    rw [BitVec.toNat_sub]; have := a.isLt; have := b.isLt; omega
  have hok : MDSpan.SliceOK s.md.dims ((tags s.dom).map (slicersIn (tags o) fq lq)) := by
    refine sliceOK_in _ _ _ _ _ _ hdims ?_
    intro q hq hqo
    obtain ⟨b, f, b', f', h1, h2, h3, h4, h5⟩ := hbo q hqo
    obtain ⟨_, _, k1, k2, k3, k4, k5, k6⟩ := hb q hq
    rw [h2] at k1
    obtain ⟨rfl, rfl⟩ := Prod.mk.inj (Res.ok.inj k1)
    simp only [fq, lq, k5, lo', hi', h1, h2, BitVec.le_def]
    rw [hsubn _ _ h3, hsubn _ _ (by omega), hsubn _ _ (by omega)]
    omega
  obtain ⟨m', hm, hcells, hd', hf', hacc⟩ := MDSpan.sub_ok hw.fits hok
  have hext' := K.extents _ hVr
  have hfst : m'.dims.map Prod.fst = vals ((axes r).map (fun a => (a.1, (BitVec.ofNat 64 a.2.length : I64)))) := by
    rw [K.exts_eq hVr, hd', subDims_in _ _ _ _ _ _ hdims, hta, htr]
    refine List.map_congr_left ?_
    intro q hq
    by_cases hqo : q ∈ tags o
    · rw [if_pos hqo]
      obtain ⟨b, f, b', f', h1, h2, h3, h4, h5⟩ := hbo q hqo
      have hgq := hgr q hq
      rw [if_pos hqo, h1] at hgq
      have hax : get q (axes r) = .ok (axis b f) := by
        simp only [axes]
        rw [get_map_snd q (fun p : U64 × U64 => axis p.1 p.2) r, hgq]; rfl
      rw [extOf_get hax, length_axis]
      apply BitVec.eq_of_toNat_eq
      simp only [fq, lq, lo', hi', h1, h2]
      rw [hsubn _ _ (by rw [hsubn _ _ h3, hsubn _ _ (by omega)]; omega), hsubn _ _ h3, hsubn _ _ (by omega),
        BitVec.toNat_ofNat]
      have := f.isLt
      omega
    · rw [if_neg hqo]
      have hgq := hgr q hq
      rw [if_neg hqo] at hgq
      have : get q (axes r) = get q (axes s.dom) := by
        simp only [axes]
        rw [get_map_snd q (fun p : U64 × U64 => axis p.1 p.2) r, get_map_snd q (fun p : U64 × U64 => axis p.1 p.2) s.dom, hgq]
      simp only [extOf, this]
  have hlen : m'.dims.length = ((axes r).map (fun a => (a.1, (BitVec.ofNat 64 a.2.length : I64)))).length := by
    have := congrArg List.length hfst
    simpa [vals] using this
  have hsl : (tags s.dom).mapM (Span.slicerDom o s.dom) = .ok ((tags s.dom).map (slicersIn (tags o) fq lq)) :=
    mapM_ok (fun q hq => slicerDom_ok ho.1 hnd hq)
  have hw' : WF Dom.spanOps (⟨m', r⟩ : Span (Dom τ)) := ⟨⟨_, hext', hfst⟩, hf'⟩
  refine ⟨⟨m', r⟩, ?_, hr, hVr, hw', hcells, ?_⟩
  · have hext'' : Dom.spanOps.extents r = _ := hext'
    simp only [Span.restrict, g1, g2, g3, g4, g5, Res.ok_bind, hguard, Res.guardAbort_true, hsl, hm, hr,
      Span.ofMdspan, hext'', hlen, decide_true, Res.guardIll_true, hfst, Res.pure_eq]
  · intro es e hp he hbox
    obtain ⟨e1, e2⟩ := merged_get hnd hp he
    have hbox' : InBox s.dom e := by
      intro q hq
      have h1 := hbox q (by show q ∈ tags r; rw [htr]; exact hq)
      have h1 : lo q r ≤ idx q e ∧ idx q e < hi q r := h1
      by_cases hqo : q ∈ tags o
      · have hgq := hgr q hq
        rw [if_pos hqo] at hgq
        rw [Dom.lo_congr hgq, Dom.hi_congr hgq] at h1
        have := hin q hqo
        omega
      · have hgq := hgr q hq
        rw [if_neg hqo] at hgq
        rw [Dom.lo_congr hgq, Dom.hi_congr hgq] at h1
        exact h1
    have hc1 : e ∈ cart (axes r) := (cart_inBox hVr (by rw [e1, htr])).2 hbox
    have hc2 : e ∈ cart (axes s.dom) := (cart_inBox hV e1).2 hbox'
    obtain ⟨u, _, _, u3, u4, u5, u6, _⟩ := K.access_mem (s := ⟨m', r⟩) hVr hw' (es := es) (e := e)
      (by rw [hta, htr]; exact hp) (by rw [hta, htr]; exact he) hc1
    obtain ⟨w, _, _, w3, w4, w5, w6, _⟩ := K.access_mem hV hw (es := es) (e := e)
      (by rw [hta]; exact hp) (by rw [hta]; exact he) hc2
    have u3 : tags u = tags s.dom := by rw [u3]; show tags (axes r) = _; rw [hta, htr]
    have u4 : Picks (axes r) (vals u) e := u4
    obtain ⟨_, hug⟩ := picks_gets (K.nodup _ hVr) (by rw [u3, hta, htr]) u4
    rw [u6, w6]
    congr 1
    obtain ⟨_, h2⟩ := hacc (vals u) u5
    show m'.off + offset m'.dims (vals u) = _
    have hndu : (tags u).Nodup := by rw [u3]; exact hnd
    rw [h2, vals_eq_val hndu, u3, joinIdx_in]
    let w' : Vect τ := (tags s.dom).map (fun q => (q, if q ∈ tags o then fq q + val u q else val u q))
    have hpk : Picks (axes s.dom) (vals w') e := by
      refine picks_of_get (K.nodup _ hV) (by rw [tags_mk, hta]) (by rw [e1, hta]) ?_
      intro q l hl
      have hq : q ∈ tags s.dom := by rw [← hta]; exact mem_tags_of_get hl
      obtain ⟨b', f', k1, k2, k3, k4, k5, k6⟩ := hb q hq
      rw [k6] at hl
      obtain rfl := Res.ok.inj hl
      have hgq := hgr q hq
      by_cases hqo : q ∈ tags o
      · obtain ⟨b, f, _, _, h1, h2, h3, h4, h5⟩ := hbo q hqo
        rw [k1] at h2
        obtain ⟨rfl, rfl⟩ := Prod.mk.inj (Res.ok.inj h2)
        rw [if_pos hqo, h1] at hgq
        have hax : get q (axes r) = .ok (axis b f) := by
          simp only [axes]
          rw [get_map_snd q (fun p : U64 × U64 => axis p.1 p.2) r, hgq]; rfl
        obtain ⟨i, y, i1, i2, i3⟩ := hug q _ hax
        refine ⟨_, y, get_mk _ hq, i2, ?_⟩
        rw [if_pos hqo, val_of_get i1]
        have hil : i.toNat < f.toNat - b.toNat := by
          have := (List.getElem?_eq_some_iff.1 i3).1
          rwa [length_axis] at this
        rw [axis_getElem? hil] at i3
        have hy := Option.some.inj i3
        have hfi : (fq q + i).toNat = b.toNat - b'.toNat + i.toNat := by
          rw [BitVec.toNat_add]
          simp only [fq, lo', h1, k1]
          rw [hsubn _ _ h3]
          have := f.isLt
          omega
        rw [hfi, axis_getElem? (by omega), ← hy]
        congr 1
        apply BitVec.eq_of_toNat_eq
        simp only [BitVec.toNat_add, BitVec.toNat_ofNat]
        have := f.isLt
        omega
      · rw [if_neg hqo] at hgq
        have hax : get q (axes r) = .ok (axis b' f') := by
          simp only [axes]
          rw [get_map_snd q (fun p : U64 × U64 => axis p.1 p.2) r, hgq, k1]; rfl
        obtain ⟨i, y, i1, i2, i3⟩ := hug q _ hax
        refine ⟨_, y, get_mk _ hq, i2, ?_⟩
        rw [if_neg hqo, val_of_get i1]
        exact i3
    rw [picks_unique (K.sorted _ hV) w4 hpk, vals_mk]

end DDC
