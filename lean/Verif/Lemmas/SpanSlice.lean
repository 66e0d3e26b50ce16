import Verif.Lemmas.SpanAccess
import Verif.Lemmas.Submdspan

/-!
# Slices of spans
-/

namespace DDC

open Tup Spec

variable {τ : Type} [DecidableEq τ]

/-- Value of a component, `0` when the tag is missing. -/
def Spec.val (v : Tup τ U64) (q : τ) : U64 :=
  match get q v with
  | .ok x => x
  | _ => 0

theorem val_of_get {v : Tup τ U64} {q : τ} {x : U64} (h : get q v = .ok x) : val v q = x := by
  rw [val, h]

theorem get_val {v : Tup τ U64} {q : τ} (h : q ∈ tags v) : get q v = .ok (val v q) := by
  obtain ⟨x, hx⟩ := get_ok_iff_mem_tags.2 h
  rw [hx, val_of_get hx]

theorem vals_eq_val {v : Tup τ U64} (hnd : (tags v).Nodup) : vals v = (tags v).map (val v) := by
  rw [vals, tags, List.map_map]
  refine List.map_congr_left ?_
  intro a ha
  exact (val_of_get (get_of_mem hnd ha)).symm

/-- Slicers built from positions `cp` in the dimensions `C`. -/
def Spec.slicersAt (C : List τ) (cp : τ → U64) (q : τ) : Slicer := if q ∈ C then .index (cp q) else .full

theorem joinIdx_at (C : List τ) (cp p : τ → U64) (ts : List τ) :
    joinIdx (ts.map (slicersAt C cp)) ((ts.filter (fun q => decide (q ∉ C))).map p) =
      ts.map (fun q => if q ∈ C then cp q else p q) := by
  induction ts with
  | nil => rfl
  | cons t ts ih =>
    by_cases h : t ∈ C
    · simp only [List.map_cons, slicersAt, h, if_true, not_true_eq_false, decide_false, Bool.false_eq_true,
        not_false_eq_true, List.filter_cons_of_neg, joinIdx]
      rw [← ih]
    · simp only [List.map_cons, slicersAt, h, if_false, not_false_eq_true, decide_true,
        List.filter_cons_of_pos, List.map_cons, joinIdx]
      rw [← ih]

theorem subDims_at (C : List τ) (cp ext : τ → U64) (ts : List τ) (ds : List (U64 × U64))
    (h : ds.map Prod.fst = ts.map ext) :
    (MDSpan.subDims ds (ts.map (slicersAt C cp))).map Prod.fst =
      (ts.filter (fun q => decide (q ∉ C))).map ext := by
  induction ts generalizing ds with
  | nil => cases ds <;> simp_all [MDSpan.subDims]
  | cons t ts ih =>
    cases ds with
    | nil => simp at h
    | cons d ds =>
      obtain ⟨n, s⟩ := d
      simp only [List.map_cons, List.cons.injEq] at h
      by_cases hC : t ∈ C
      · simp only [List.map_cons, slicersAt, hC, if_true, MDSpan.subDims, not_true_eq_false, decide_false,
          Bool.false_eq_true, not_false_eq_true, List.filter_cons_of_neg]
        exact ih ds h.2
      · simp only [List.map_cons, slicersAt, hC, if_false, MDSpan.subDims, not_false_eq_true, decide_true,
          List.filter_cons_of_pos, List.map_cons, List.cons.injEq]
        exact ⟨h.1, ih ds h.2⟩

theorem sliceOK_at (C : List τ) (cp ext : τ → U64) (ts : List τ) (ds : List (U64 × U64))
    (h : ds.map Prod.fst = ts.map ext) (hc : ∀ q ∈ ts, q ∈ C → cp q < ext q) :
    MDSpan.SliceOK ds (ts.map (slicersAt C cp)) := by
  induction ts generalizing ds with
  | nil =>
    cases ds with
    | nil => exact .nil
    | cons => simp at h
  | cons t ts ih =>
    cases ds with
    | nil => simp at h
    | cons d ds =>
      simp only [List.map_cons, List.cons.injEq] at h
      refine .cons ?_ (ih ds h.2 (fun q hq => hc q (List.mem_cons_of_mem _ hq)))
      by_cases hC : t ∈ C
      · simpa [slicersAt, hC, MDSpan.sliceValid, h.1] using hc t List.mem_cons_self hC
      · simp [slicersAt, hC, MDSpan.sliceValid]

theorem mapM_slicerVec (c : Vect τ) (ts : List τ) :
    ts.mapM (Span.slicerVec c) = .ok (ts.map (slicersAt (tags c) (val c))) := by
  refine mapM_ok (g := slicersAt (tags c) (val c)) ?_
  intro q _
  by_cases h : q ∈ tags c
  · simp only [Span.slicerVec, TypeSeq.present_eq_decide, h, decide_true, if_true, get_val h, Res.ok_bind,
      slicersAt]
    rfl
  · simp [Span.slicerVec, TypeSeq.present_eq_decide, h, slicersAt]

variable {D : Type} {ops : SpanOps τ D} {axesOf : D → List (τ × List U64)} {V : D → Prop}

/-- Number of elements along a dimension, in `size_t`. -/
def Spec.extOf (ax : List (τ × List U64)) (q : τ) : U64 :=
  match get q ax with
  | .ok l => BitVec.ofNat 64 l.length
  | _ => 0

theorem extOf_get {ax : List (τ × List U64)} {q : τ} {l : List U64} (h : get q ax = .ok l) :
    extOf ax q = BitVec.ofNat 64 l.length := by rw [extOf, h]

theorem SpanKind.exts_eq (K : SpanKind ops axesOf V) {d : D} (hV : V d) :
    vals ((axesOf d).map (fun a => (a.1, (BitVec.ofNat 64 a.2.length : I64)))) =
      (Tup.tags (axesOf d)).map (extOf (axesOf d)) := by
  rw [vals, Tup.tags, List.map_map, List.map_map]
  refine List.map_congr_left ?_
  intro a ha
  exact (extOf_get (get_of_mem (K.nodup d hV) ha)).symm

theorem SpanKind.get_ext (K : SpanKind ops axesOf V) {d : D} (hV : V d) {q : τ} {l : List U64}
    (hl : Tup.get q (axesOf d) = .ok l) {x : Vect τ} (hx : ops.extents d = .ok x) :
    Tup.get q x = .ok (BitVec.ofNat 64 l.length) := by
  rw [K.extents d hV] at hx
  rw [← Res.ok.inj hx]
  rw [get_map_snd q (fun l : List U64 => (BitVec.ofNat 64 l.length : I64)) (axesOf d), hl]; rfl

theorem allLt_ok {c x : Vect τ} (qs : List τ)
    (h : ∀ q ∈ qs, ∃ a b, get q c = .ok a ∧ get q x = .ok b) :
    ∃ r, Span.allLt c x qs = .ok r ∧
      (r = true ↔ ∀ q ∈ qs, ∀ a b, get q c = .ok a → get q x = .ok b → a.toInt < b.toInt) := by
  induction qs with
  | nil => exact ⟨true, rfl, by simp⟩
  | cons q qs ih =>
    obtain ⟨r, r1, r2⟩ := ih (fun q' hq => h q' (List.mem_cons_of_mem _ hq))
    obtain ⟨a, b, ha, hb⟩ := h q List.mem_cons_self
    refine ⟨sLt a b && r, by simp [Span.allLt, ha, hb, r1], ?_⟩
    rw [Bool.and_eq_true, r2, List.forall_mem_cons]
    refine and_congr ?_ Iff.rfl
    constructor
    · intro hs a' b' ha' hb'
      rw [ha] at ha'; rw [hb] at hb'
      obtain rfl := Res.ok.inj ha'; obtain rfl := Res.ok.inj hb'
      simpa [sLt] using hs
    · intro hs
      simpa [sLt] using hs a b ha hb

/-- `operator[](DiscreteVector)` with positions in range. -/
theorem SpanKind.sliceVec_ok (K : SpanKind ops axesOf V) {s : Span D} (hV : V s.dom) (hw : WF ops s)
    {c : Vect τ} (hsub : ∀ q ∈ Tup.tags c, q ∈ Tup.tags (axesOf s.dom))
    (hlt : ∀ q i l, Tup.get q c = .ok i → Tup.get q (axesOf s.dom) = .ok l → i.toNat < l.length) :
    ∃ s', s.sliceVec ops c = .ok s' ∧ V s'.dom ∧ WF ops s' ∧
      ops.select (TypeSeq.remove (Tup.tags (axesOf s.dom)) (Tup.tags c)) s.dom = .ok s'.dom ∧
      s'.md.cells = s.md.cells ∧
      ∀ u w : Vect τ, Tup.tags u = TypeSeq.remove (Tup.tags (axesOf s.dom)) (Tup.tags c) →
        Tup.tags w = Tup.tags (axesOf s.dom) →
        (∀ q ∈ Tup.tags c, Tup.get q w = Tup.get q c) → (∀ q ∈ Tup.tags u, Tup.get q w = Tup.get q u) →
        MDSpan.InExt s'.md.dims (vals u) →
        s'.md.off + offset s'.md.dims (vals u) = s.md.off + offset s.md.dims (vals w) := by
  have hnd := K.nodup _ hV
  obtain ⟨x, hx, hdims⟩ := hw.exts
  have hx' := hx
  rw [K.extents _ hV] at hx'
  have hvx : vals x = (Tup.tags (axesOf s.dom)).map (extOf (axesOf s.dom)) := by
    rw [← Res.ok.inj hx', K.exts_eq hV]
  rw [hvx] at hdims
  have hok : MDSpan.SliceOK s.md.dims ((Tup.tags (axesOf s.dom)).map (slicersAt (Tup.tags c) (val c))) := by
    refine sliceOK_at _ _ _ _ _ hdims ?_
    intro q hq hqc
    obtain ⟨l, hl⟩ := get_ok_iff_mem_tags.2 hq
    have h1 := hlt q _ l (get_val hqc) hl
    have h2 := K.small _ hV (q, l) (get_mem hl)
    rw [extOf_get hl]
    show (val c q).toNat < (BitVec.ofNat 64 l.length).toNat
    rw [BitVec.toNat_ofNat, Nat.mod_eq_of_lt (by simp only at h2; omega)]
    exact h1
  obtain ⟨m', hm, hcells, hd', hf', hacc⟩ := MDSpan.sub_ok hw.fits hok
  have hndr : (TypeSeq.remove (Tup.tags (axesOf s.dom)) (Tup.tags c)).Nodup := by
    rw [TypeSeq.remove_eq]; exact hnd.filter _
  have hsubr : ∀ q ∈ TypeSeq.remove (Tup.tags (axesOf s.dom)) (Tup.tags c), q ∈ Tup.tags (axesOf s.dom) := by
    intro q hq
    rw [TypeSeq.remove_eq] at hq
    exact (List.mem_filter.1 hq).1
  obtain ⟨d', hsel, hV', htd, hgd⟩ := K.select _ hV _ hndr hsubr
  have hext' : ops.extents d' = .ok ((axesOf d').map (fun a => (a.1, (BitVec.ofNat 64 a.2.length : I64)))) :=
    K.extents _ hV'
  have hfst : m'.dims.map Prod.fst = vals ((axesOf d').map (fun a => (a.1, (BitVec.ofNat 64 a.2.length : I64)))) := by
    rw [K.exts_eq hV', hd', subDims_at _ _ _ _ _ hdims, htd, TypeSeq.remove_eq]
    refine List.map_congr_left ?_
    intro q hq
    have := hgd q (by rw [TypeSeq.remove_eq]; exact hq)
    simp only [extOf, this]
  have hlen : m'.dims.length = ((axesOf d').map (fun a => (a.1, (BitVec.ofNat 64 a.2.length : I64)))).length := by
    have := congrArg List.length hfst
    simpa [vals] using this
  have hall : Span.allLt c x (Tup.tags c) = .ok true := by
    obtain ⟨r, r1, r2⟩ := allLt_ok (c := c) (x := x) (Tup.tags c) (by
      intro q hq
      obtain ⟨l, hl⟩ := get_ok_iff_mem_tags.2 (hsub q hq)
      exact ⟨_, _, get_val hq, K.get_ext hV hl hx⟩)
    rw [r1]
    congr 1
    rw [r2]
    intro q hq a b ha hb
    obtain ⟨l, hl⟩ := get_ok_iff_mem_tags.2 (hsub q hq)
    rw [K.get_ext hV hl hx] at hb
    obtain rfl := Res.ok.inj hb
    have h1 := hlt q _ l ha hl
    have h2 := K.small _ hV (q, l) (get_mem hl)
    simp only at h2
    rw [BitVec.toInt_eq_toNat_of_lt (by omega), BitVec.toInt_eq_toNat_of_lt (by
      rw [BitVec.toNat_ofNat, Nat.mod_eq_of_lt (by omega)]; omega), BitVec.toNat_ofNat, Nat.mod_eq_of_lt (by omega)]
    omega
  refine ⟨⟨m', d'⟩, ?_, hV', ⟨⟨_, hext', hfst⟩, hf'⟩, hsel, hcells, ?_⟩
  · simp only [Span.sliceVec, hx, Res.ok_bind, hall, Res.guardAbort_true, K.tags _ hV, mapM_slicerVec, hm, hsel,
      Span.ofMdspan, hext', hlen, decide_true, Res.guardIll_true, hfst, Res.pure_eq]
  · intro u w hu hw' hwc hwu hin
    have hndu : (Tup.tags u).Nodup := by rw [hu]; exact hndr
    have hndw : (Tup.tags w).Nodup := by rw [hw']; exact hnd
    obtain ⟨_, h2⟩ := hacc (vals u) hin
    show m'.off + offset m'.dims (vals u) = _
    rw [h2, vals_eq_val hndu, hu, TypeSeq.remove_eq, joinIdx_at, vals_eq_val hndw, hw']
    congr 2
    refine List.map_congr_left ?_
    intro q hq
    by_cases hqc : q ∈ Tup.tags c
    · rw [if_pos hqc]
      simp only [val, hwc q hqc]
    · rw [if_neg hqc]
      have : q ∈ Tup.tags u := by rw [hu, TypeSeq.remove_eq]; simp [hq, hqc]
      simp only [val, hwu q this]

/-- A displacement at or beyond an extent is rejected by the assertion. -/
theorem SpanKind.sliceVec_beyond (K : SpanKind ops axesOf V) {s : Span D} (hV : V s.dom)
    {c : Vect τ} (hsub : ∀ q ∈ Tup.tags c, q ∈ Tup.tags (axesOf s.dom))
    {q : τ} {i : I64} {l : List U64} (hi : Tup.get q c = .ok i) (hl : Tup.get q (axesOf s.dom) = .ok l)
    (hge : (l.length : Int) ≤ i.toInt) : s.sliceVec ops c = .abort := by
  have hx := K.extents _ hV
  obtain ⟨r, r1, r2⟩ := allLt_ok (c := c) (x := (axesOf s.dom).map (fun a => (a.1, (BitVec.ofNat 64 a.2.length : I64))))
    (Tup.tags c) (by
      intro q hq
      obtain ⟨l, hl⟩ := get_ok_iff_mem_tags.2 (hsub q hq)
      exact ⟨_, _, get_val hq, K.get_ext hV hl hx⟩)
  have hr : r = false := by
    cases r with
    | false => rfl
    | true =>
      have := r2.1 rfl q (mem_tags_of_get hi) i _ hi (K.get_ext hV hl hx)
      have h2 := K.small _ hV (q, l) (get_mem hl)
      simp only at h2
      rw [BitVec.toInt_eq_toNat_of_lt (x := BitVec.ofNat 64 l.length) (by
        rw [BitVec.toNat_ofNat, Nat.mod_eq_of_lt (by omega)]; omega), BitVec.toNat_ofNat,
        Nat.mod_eq_of_lt (by omega)] at this
      omega
  simp only [Span.sliceVec, hx, Res.ok_bind, r1, hr, Res.guardAbort_false, Res.abort_bind]

theorem mem_cart_iff {ax : List (τ × List U64)} (hnd : (tags ax).Nodup) {e : Elem τ} :
    e ∈ cart ax ↔ tags e = tags ax ∧ ∀ q x l, get q e = .ok x → get q ax = .ok l → x ∈ l := by
  rw [mem_cart_get hnd]
  refine and_congr_right fun ht => ?_
  constructor
  · intro h q x l hx hl
    obtain ⟨y, h1, h2⟩ := h q l hl
    rw [hx] at h1
    obtain rfl := Res.ok.inj h1
    exact h2
  · intro h q l hl
    obtain ⟨x, hx⟩ := get_ok_iff_mem_tags.2 (show q ∈ tags e by rw [ht]; exact mem_tags_of_get hl)
    exact ⟨x, hx, h q x l hx hl⟩

theorem picks_gets {ax : List (τ × List U64)} {v : Vect τ} {e : Elem τ} (hnd : (tags ax).Nodup)
    (hv : tags v = tags ax) (h : Picks ax (vals v) e) :
    tags e = tags ax ∧
    ∀ q l, get q ax = .ok l → ∃ (i : I64) (x : U64), get q v = .ok i ∧ get q e = .ok x ∧ l[i.toNat]? = some x := by
  induction ax generalizing v e with
  | nil =>
    cases v with
    | nil =>
      cases e with
      | nil => exact ⟨rfl, fun q l h => by simp [Tup.get] at h⟩
      | cons => simp [Picks, vals] at h
    | cons => simp [tags] at hv
  | cons a ax ih =>
    obtain ⟨t, l⟩ := a
    cases v with
    | nil => simp [tags] at hv
    | cons v0 v =>
      obtain ⟨tv, i⟩ := v0
      cases e with
      | nil => simp [Picks, vals] at h
      | cons e0 e =>
        obtain ⟨te, x⟩ := e0
        simp only [tags, List.map_cons, List.cons.injEq] at hv
        simp only [tags, List.map_cons, List.nodup_cons] at hnd
        simp only [vals, List.map_cons, Picks] at h
        obtain ⟨h1, h2, h3⟩ := h
        obtain ⟨ih1, ih2⟩ := ih hnd.2 hv.2 h3
        obtain ⟨rfl, hv2⟩ := hv
        subst h1
        refine ⟨by simpa [tags] using ih1, ?_⟩
        intro q l' hq
        rw [get_cons] at hq
        simp only [get_cons]
        by_cases hqt : q = te
        · rw [if_pos hqt] at hq ⊢
          rw [if_pos hqt]
          obtain rfl := Res.ok.inj hq
          exact ⟨i, x, rfl, rfl, h2⟩
        · rw [if_neg hqt] at hq ⊢
          rw [if_neg hqt]
          exact ih2 q l' hq

/-- Slicing by an element is slicing by its positions. -/
theorem SpanKind.slice_eq (K : SpanKind ops axesOf V) {s : Span D} (hV : V s.dom) {e : Elem τ} {c : Vect τ}
    (hnd : (Tup.tags e).Nodup) (hsub : ∀ q ∈ Tup.tags e, q ∈ Tup.tags (axesOf s.dom)) (hc : Tup.tags c = Tup.tags e)
    (hpos : ∀ q l, q ∈ Tup.tags e → Tup.get q (axesOf s.dom) = .ok l →
      ∃ (i : I64) (x : U64), Tup.get q c = .ok i ∧ Tup.get q e = .ok x ∧ l[i.toNat]? = some x) :
    s.slice ops e = s.sliceVec ops c := by
  obtain ⟨d, hsel, hVd, htd, hgd⟩ := K.select _ hV _ hnd hsub
  have hpk : Picks (axesOf d) (vals c) e := by
    refine picks_of_get (K.nodup _ hVd) (by rw [hc, htd]) htd.symm ?_
    intro q l hl
    have hq : q ∈ Tup.tags e := by rw [← htd]; exact mem_tags_of_get hl
    rw [hgd q hq] at hl
    exact hpos q l hq hl
  have hp : (([e] : List (Elem τ)).flatMap Tup.tags).Perm (Tup.tags (axesOf d)) := by simp [htd]
  have hone : ofTuples (Tup.tags (axesOf d)) [e] = .ok e := ofTuples_one (K.nodup _ hVd) htd.symm
  obtain ⟨b, b1, b2⟩ := K.contains _ hVd [e] e hp hone
  obtain rfl := b2.2 (picks_cart hpk)
  obtain ⟨v, v1, v2, v3⟩ := K.locate _ hVd [e] e hp hone (picks_cart hpk)
  have hvc : v = c := by
    have h1 := picks_unique (K.sorted _ hVd) v3 hpk
    have hndv : (Tup.tags v).Nodup := by rw [v2, htd]; exact hnd
    have hndc : (Tup.tags c).Nodup := by rw [hc]; exact hnd
    have ht : Tup.tags v = Tup.tags c := by rw [v2, htd, hc]
    have hz : ∀ a b : Vect τ, Tup.tags a = Tup.tags b → vals a = vals b → a = b := by
      intro a
      induction a with
      | nil => intro b h _; cases b <;> simp_all [Tup.tags]
      | cons a0 a ih =>
        intro b h1 h2
        cases b with
        | nil => simp [Tup.tags] at h1
        | cons b0 b =>
          simp only [Tup.tags, vals, List.map_cons, List.cons.injEq] at h1 h2
          rw [ih b h1.2 h2.2, Prod.ext h1.1 h2.1]
    exact hz _ _ ht h1
  simp only [Span.slice, hsel, Res.ok_bind, b1, Res.guardAbort_true, v1, hvc]

/-- Elements out of the domain are rejected. -/
theorem SpanKind.slice_outside (K : SpanKind ops axesOf V) {s : Span D} (hV : V s.dom) {e : Elem τ}
    (hnd : (Tup.tags e).Nodup) (hsub : ∀ q ∈ Tup.tags e, q ∈ Tup.tags (axesOf s.dom))
    {q : τ} {x : U64} {l : List U64} (hx : Tup.get q e = .ok x) (hl : Tup.get q (axesOf s.dom) = .ok l) (hn : x ∉ l) :
    s.slice ops e = .abort := by
  obtain ⟨d, hsel, hVd, htd, hgd⟩ := K.select _ hV _ hnd hsub
  have hp : (([e] : List (Elem τ)).flatMap Tup.tags).Perm (Tup.tags (axesOf d)) := by simp [htd]
  have hone : ofTuples (Tup.tags (axesOf d)) [e] = .ok e := ofTuples_one (K.nodup _ hVd) htd.symm
  obtain ⟨b, b1, b2⟩ := K.contains _ hVd [e] e hp hone
  have : b = false := by
    cases b with
    | false => rfl
    | true =>
      have h2 := ((mem_cart_iff (K.nodup _ hVd)).1 (b2.1 rfl)).2 q
      have hq := mem_tags_of_get hx
      have h3 := hgd q hq
      rw [hl] at h3
      exact absurd (h2 x l hx h3) hn
  simp only [Span.slice, hsel, Res.ok_bind, b1, this, Res.guardAbort_false, Res.abort_bind]

/-- Slicing by an element of the domain. -/
theorem SpanKind.slice_ok (K : SpanKind ops axesOf V) {s : Span D} (hV : V s.dom) (hw : WF ops s) {e : Elem τ}
    (hnd : (Tup.tags e).Nodup) (hsub : ∀ q ∈ Tup.tags e, q ∈ Tup.tags (axesOf s.dom))
    (hin : ∀ q x l, Tup.get q e = .ok x → Tup.get q (axesOf s.dom) = .ok l → x ∈ l) :
    ∃ s', s.slice ops e = .ok s' ∧ V s'.dom ∧ WF ops s' ∧
      ops.select (TypeSeq.remove (Tup.tags (axesOf s.dom)) (Tup.tags e)) s.dom = .ok s'.dom ∧
      s'.md.cells = s.md.cells ∧
      ∀ fs : List (Elem τ), (fs.flatMap Tup.tags).Perm (TypeSeq.remove (Tup.tags (axesOf s.dom)) (Tup.tags e)) →
        s'.access ops fs = s.access ops (e :: fs) := by
  obtain ⟨d, hsel, hVd, htd, hgd⟩ := K.select _ hV _ hnd hsub
  have hp : (([e] : List (Elem τ)).flatMap Tup.tags).Perm (Tup.tags (axesOf d)) := by simp [htd]
  have hone : ofTuples (Tup.tags (axesOf d)) [e] = .ok e := ofTuples_one (K.nodup _ hVd) htd.symm
  have hcart : e ∈ cart (axesOf d) := by
    refine (mem_cart_iff (K.nodup _ hVd)).2 ⟨htd.symm, ?_⟩
    intro q x l hx hl
    rw [hgd q (mem_tags_of_get hx)] at hl
    exact hin q x l hx hl
  obtain ⟨v, v1, v2, v3⟩ := K.locate _ hVd [e] e hp hone hcart
  obtain ⟨_, hvg⟩ := picks_gets (K.nodup _ hVd) v2 v3
  have hve : Tup.tags v = Tup.tags e := by rw [v2, htd]
  have hpos : ∀ q l, q ∈ Tup.tags e → Tup.get q (axesOf s.dom) = .ok l →
      ∃ (i : I64) (x : U64), Tup.get q v = .ok i ∧ Tup.get q e = .ok x ∧ l[i.toNat]? = some x := by
    intro q l hq hl
    rw [← hgd q hq] at hl
    exact hvg q l hl
  have hsl := K.slice_eq hV hnd hsub hve hpos
  have hlt : ∀ q i l, Tup.get q v = .ok i → Tup.get q (axesOf s.dom) = .ok l → i.toNat < l.length := by
    intro q i l hi hl
    obtain ⟨i', x, h1, _, h3⟩ := hpos q l (by rw [← hve]; exact mem_tags_of_get hi) hl
    rw [hi] at h1
    obtain rfl := Res.ok.inj h1
    exact (List.getElem?_eq_some_iff.1 h3).1
  obtain ⟨s', e1, e2, e3, e4, e5, e6⟩ := K.sliceVec_ok hV hw (by rw [hve]; exact hsub) hlt
  rw [hve] at e4 e6
  refine ⟨s', by rw [hsl, e1], e2, e3, e4, e5, ?_⟩
  intro fs hfs
  have hndA := K.nodup _ hV
  have hndr : (TypeSeq.remove (Tup.tags (axesOf s.dom)) (Tup.tags e)).Nodup := by
    rw [TypeSeq.remove_eq]; exact hndA.filter _
  have hmr : ∀ q, q ∈ TypeSeq.remove (Tup.tags (axesOf s.dom)) (Tup.tags e) ↔ q ∈ Tup.tags (axesOf s.dom) ∧ q ∉ Tup.tags e := by
    intro q; rw [TypeSeq.remove_eq, List.mem_filter, decide_eq_true_eq]
  obtain ⟨d', hsel', hVd', htd', hgd'⟩ := K.select _ hV _ hndr (fun q hq => ((hmr q).1 hq).1)
  rw [e4] at hsel'
  obtain rfl := Res.ok.inj hsel'
  -- the remaining components
  obtain ⟨f, f1, f2, f3⟩ := ofTuples_ok (Dom.ownedOnce_of_perm hndr hfs)
  have hpg : ((e :: fs).flatMap Tup.tags).Perm (Tup.tags (axesOf s.dom)) := by
    rw [List.flatMap_cons]
    refine (List.Perm.append_left _ hfs).trans ?_
    refine (List.perm_ext_iff_of_nodup ?_ hndA).2 ?_
    · refine List.nodup_append.2 ⟨hnd, hndr, ?_⟩
      intro q h1 b h2 hqb; subst hqb
      exact ((hmr q).1 h2).2 h1
    · intro q
      rw [List.mem_append, hmr]
      constructor
      · rintro (h | h)
        · exact hsub q h
        · exact h.1
      · intro h
        by_cases h' : q ∈ Tup.tags e
        · exact .inl h'
        · exact .inr ⟨h, h'⟩
  obtain ⟨g, g1, g2, g3⟩ := ofTuples_ok (Dom.ownedOnce_of_perm hndA hpg)
  have hge : ∀ q ∈ Tup.tags e, Tup.get q g = Tup.get q e := fun q hq => g3 q (hsub q hq) e (by simp) hq
  have hgf : ∀ q ∈ Tup.tags f, Tup.get q g = Tup.get q f := by
    intro q hq
    rw [f2] at hq
    obtain ⟨y, hy, hqy⟩ := List.mem_flatMap.1 (hfs.mem_iff.2 hq)
    rw [g3 q ((hmr q).1 hq).1 y (List.mem_cons_of_mem _ hy) hqy, f3 q hq y hy hqy]
  have hiff : f ∈ cart (axesOf s'.dom) ↔ g ∈ cart (axesOf s.dom) := by
    rw [mem_cart_iff (K.nodup _ e2), mem_cart_iff hndA]
    constructor
    · rintro ⟨_, h⟩
      refine ⟨g2, ?_⟩
      intro q x l hx hl
      by_cases hq : q ∈ Tup.tags e
      · rw [hge q hq] at hx
        exact hin q x l hx hl
      · have hqr : q ∈ TypeSeq.remove (Tup.tags (axesOf s.dom)) (Tup.tags e) := (hmr q).2 ⟨mem_tags_of_get hl, hq⟩
        rw [hgf q (by rw [f2]; exact hqr)] at hx
        exact h q x l hx (by rw [hgd' q hqr, hl])
    · rintro ⟨_, h⟩
      refine ⟨by rw [f2, htd'], ?_⟩
      intro q x l hx hl
      have hqr : q ∈ TypeSeq.remove (Tup.tags (axesOf s.dom)) (Tup.tags e) := by
        rw [← f2]; exact mem_tags_of_get hx
      rw [← hgf q (by rw [f2]; exact hqr)] at hx
      exact h q x l hx (by rw [← hgd' q hqr, hl])
  have hfs' : (fs.flatMap Tup.tags).Perm (Tup.tags (axesOf s'.dom)) := by rw [htd']; exact hfs
  have f1' : ofTuples (Tup.tags (axesOf s'.dom)) fs = .ok f := by rw [htd']; exact f1
  by_cases hfin : f ∈ cart (axesOf s'.dom)
  · have hgin := hiff.1 hfin
    obtain ⟨u, _, _, u3, u4, u5, u6, _⟩ := K.access_mem e2 e3 hfs' f1' hfin
    obtain ⟨w, _, _, w3, w4, w5, w6, _⟩ := K.access_mem hV hw hpg g1 hgin
    obtain ⟨_, hug⟩ := picks_gets (K.nodup _ e2) u3 u4
    have hpw : (([v, u] : List (Vect τ)).flatMap Tup.tags).Perm (Tup.tags (axesOf s.dom)) := by
      have h1 : ([v, u] : List (Vect τ)).flatMap Tup.tags = Tup.tags e ++ TypeSeq.remove (Tup.tags (axesOf s.dom)) (Tup.tags e) := by
        simp [hve, u3, htd']
      rw [h1]
      rw [List.flatMap_cons] at hpg
      exact ((List.Perm.append_left _ hfs).symm).trans hpg
    obtain ⟨w', a1, a2, a3⟩ := ofTuples_ok (Dom.ownedOnce_of_perm hndA hpw)
    have hwv : ∀ q ∈ Tup.tags v, Tup.get q w' = Tup.get q v := fun q hq =>
      a3 q (hsub q (hve ▸ hq)) v (by simp) hq
    have hwu : ∀ q ∈ Tup.tags u, Tup.get q w' = Tup.get q u := fun q hq =>
      a3 q ((hmr q).1 (by rw [← htd', ← u3]; exact hq)).1 u (by simp) hq
    have hpk : Picks (axesOf s.dom) (vals w') g := by
      refine picks_of_get hndA a2 g2 ?_
      intro q l hl
      by_cases hq : q ∈ Tup.tags e
      · obtain ⟨i, x, h1, h2, h3⟩ := hpos q l hq hl
        exact ⟨i, x, by rw [hwv q (hve ▸ hq), h1], by rw [hge q hq, h2], h3⟩
      · have hqr : q ∈ TypeSeq.remove (Tup.tags (axesOf s.dom)) (Tup.tags e) := (hmr q).2 ⟨mem_tags_of_get hl, hq⟩
        obtain ⟨i, x, h1, h2, h3⟩ := hug q l (by rw [hgd' q hqr, hl])
        exact ⟨i, x, by rw [hwu q (mem_tags_of_get h1), h1], by rw [hgf q (mem_tags_of_get h2), h2], h3⟩
    rw [u6, w6, picks_unique (K.sorted _ hV) w4 hpk]
    congr 1
    exact e6 u w' (by rw [u3, htd']) a2 (fun q hq => hwv q (by rw [hve]; exact hq)) hwu u5
  · rw [(K.access_not_mem e2 hfs' f1' hfin).2, (K.access_not_mem hV hpg g1 (fun h => hfin (hiff.2 h))).2]

end DDC
