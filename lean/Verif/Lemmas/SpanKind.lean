import Verif.Lemmas.Mdspan
import Verif.Lemmas.Enumerate
import Verif.Lemmas.BlockAxes

/-!
# Supports of chunks as products of axes
-/

namespace DDC

open Tup Spec

variable {τ : Type} [DecidableEq τ]

/-- The supports satisfying `V` are the products of the axes `axesOf d` and the operations used by
chunks have their meaning on these axes. -/
structure SpanKind {D : Type} (ops : SpanOps τ D) (axesOf : D → List (τ × List U64)) (V : D → Prop) : Prop where
  tags : ∀ d, V d → ops.tags d = Tup.tags (axesOf d)
  nodup : ∀ d, V d → (Tup.tags (axesOf d)).Nodup
  sorted : ∀ d, V d → ∀ a ∈ axesOf d, a.2.Pairwise (fun x y => x.toNat < y.toNat)
  small : ∀ d, V d → ∀ a ∈ axesOf d, a.2.length < 2 ^ 63
  extents : ∀ d, V d → ops.extents d = .ok ((axesOf d).map (fun a => (a.1, (BitVec.ofNat 64 a.2.length : I64))))
  size : ∀ d, V d → ∃ s, ops.size d = .ok s ∧
    s.toNat = ((axesOf d).map (fun a => a.2.length)).prod % 2 ^ 64
  contains : ∀ d, V d → ∀ (es : List (Elem τ)) e, (es.flatMap Tup.tags).Perm (Tup.tags (axesOf d)) →
    Tup.ofTuples (Tup.tags (axesOf d)) es = .ok e →
    ∃ c, ops.contains d es = .ok c ∧ (c = true ↔ e ∈ cart (axesOf d))
  locate : ∀ d, V d → ∀ (es : List (Elem τ)) e, (es.flatMap Tup.tags).Perm (Tup.tags (axesOf d)) →
    Tup.ofTuples (Tup.tags (axesOf d)) es = .ok e → e ∈ cart (axesOf d) →
    ∃ v, ops.distance d es = .ok v ∧ Tup.tags v = Tup.tags (axesOf d) ∧ Picks (axesOf d) (vals v) e
  select : ∀ d, V d → ∀ qs : List τ, qs.Nodup → (∀ q ∈ qs, q ∈ Tup.tags (axesOf d)) →
    ∃ d', ops.select qs d = .ok d' ∧ V d' ∧ Tup.tags (axesOf d') = qs ∧
      ∀ q ∈ qs, get q (axesOf d') = get q (axesOf d)

theorem picks_of_get {ax : List (τ × List U64)} {v : Vect τ} {e : Elem τ} (hnd : (tags ax).Nodup)
    (hv : tags v = tags ax) (he : tags e = tags ax)
    (h : ∀ q l, get q ax = .ok l → ∃ (i : I64) (x : U64), get q v = .ok i ∧ get q e = .ok x ∧ l[i.toNat]? = some x) :
    Picks ax (vals v) e := by
  induction ax generalizing v e with
  | nil =>
    cases v with
    | nil => cases e with
      | nil => trivial
      | cons => simp at he
    | cons => simp at hv
  | cons a ax ih =>
    cases v with
    | nil => simp at hv
    | cons b v =>
      cases e with
      | nil => simp at he
      | cons c e =>
        obtain ⟨t, l⟩ := a
        obtain ⟨t1, i⟩ := b
        obtain ⟨t2, x⟩ := c
        simp only [tags_cons, List.cons.injEq, List.nodup_cons] at hv he hnd
        obtain ⟨rfl, hv⟩ := hv
        obtain ⟨rfl, he⟩ := he
        refine ⟨rfl, ?_, ?_⟩
        · obtain ⟨j, y, h1, h2, h3⟩ := h t2 l (by rw [get_cons, if_pos rfl])
          rw [get_cons, if_pos rfl] at h1 h2
          rw [Res.ok.inj h1, Res.ok.inj h2]; exact h3
        · refine ih hnd.2 hv he ?_
          intro q m hm
          have hne : q ≠ t2 := by rintro rfl; exact hnd.1 (mem_tags_of_get hm)
          obtain ⟨j, y, h1, h2, h3⟩ := h q m (by rw [get_cons, if_neg hne]; exact hm)
          rw [get_cons, if_neg hne] at h1 h2
          exact ⟨j, y, h1, h2, h3⟩

/-- Reading a merged tuple. -/
theorem merged_get {es : List (Elem τ)} {qs : List τ} {e : Elem τ} (hnd : qs.Nodup)
    (hp : (es.flatMap tags).Perm qs) (he : ofTuples qs es = .ok e) :
    tags e = qs ∧ ∀ q ∈ qs, ∀ x ∈ es, q ∈ tags x → get q e = get q x := by
  obtain ⟨r, h1, h2, h3⟩ := ofTuples_ok (Dom.ownedOnce_of_perm hnd hp)
  rw [he] at h1; injection h1 with h1; subst h1
  exact ⟨h2, h3⟩

theorem cart_inSparse {d : SpDom τ} (hd : SpValid d) {e : Elem τ} (ht : tags e = tags d) :
    e ∈ cart d ↔ InSparse d e := by
  rw [mem_cart_get hd.1]
  exact ⟨fun h => h.2, fun h => ⟨ht, h⟩⟩

theorem cart_inBox {d : Dom τ} (hd : Valid d) {e : Elem τ} (ht : tags e = tags d) :
    e ∈ cart (axes d) ↔ InBox d e := by
  rw [mem_cart_axes hd]
  obtain ⟨c, g1, g2⟩ := Dom.contains_one hd.1 (e := e) (by rw [SameTags, ht])
  rw [g1]
  constructor
  · rintro ⟨_, h⟩; exact g2.1 (Res.ok.inj h)
  · intro h; exact ⟨ht, by rw [g2.2 h]⟩

theorem lens_axes (d : Dom τ) : ((axes d).map (fun a => a.2.length)).prod = ((d.map (fun p => p.2.2.toNat - p.2.1.toNat))).prod := by
  simp only [axes, List.map_map]
  congr 1
  refine List.map_congr_left ?_
  rintro ⟨t, b, e⟩ _
  simp [length_axis]

theorem card_eq {d : Dom τ} (hnd : (tags d).Nodup) :
    card d = ((axes d).map (fun a => a.2.length)).prod := by
  rw [card, tags, axes, List.map_map, List.map_map]
  congr 1
  refine List.map_congr_left ?_
  rintro ⟨t, b, e⟩ hm
  have := get_of_mem hnd hm
  simp [len, lo_ok this, hi_ok this, length_axis]

theorem scard_eq {d : SDom τ} (hnd : (tags d).Nodup) :
    scard d = ((saxes d).map (fun a => a.2.length)).prod := by
  rw [scard, tags, saxes, List.map_map, List.map_map]
  congr 1
  refine List.map_congr_left ?_
  rintro ⟨t, b, n, s⟩ hm
  have := get_of_mem hnd hm
  simp [SDom.count_ok this, length_progression]

theorem spanKind_dom : SpanKind (Dom.spanOps (τ := τ)) axes Valid where
  tags d _ := (tags_axes d).symm
  nodup d hd := by have ht : Tup.tags (axes d) = Tup.tags d := tags_axes d; rw [ht]; exact hd.1
  sorted d _ a ha := by
    obtain ⟨⟨t, b, e⟩, _, rfl⟩ := List.mem_map.1 ha
    exact axis_sorted b e
  small d hd := (grid_dom hd).small
  extents d hd := (grid_dom hd).extents
  size d hd := by rw [← card_eq hd.1]; exact Dom.size_ok d hd
  contains d hd es e hp he := by
    have ht : Tup.tags (axes d) = Tup.tags d := tags_axes d
    rw [ht] at hp he
    obtain ⟨e1, e2⟩ := merged_get hd.1 hp he
    obtain ⟨c, g1, g2⟩ := Dom.contains_iff hd.1 (by rw [← length_tags d]; exact Dom.sum_length_of_perm hp) he
    exact ⟨c, g1, g2.trans (cart_inBox hd e1).symm⟩
  locate d hd es e hp he hin := by
    have ht : Tup.tags (axes d) = Tup.tags d := tags_axes d
    rw [ht] at hp he
    obtain ⟨e1, e2⟩ := merged_get hd.1 hp he
    rw [cart_inBox hd e1] at hin
    obtain ⟨v, v1, v2, v3⟩ := Dom.distance_ok hd.1 hp
    refine ⟨v, v1, by rw [ht, v2], picks_of_get (by rw [ht]; exact hd.1) (by rw [ht, v2]) (by rw [ht, e1]) ?_⟩
    intro q l hl
    obtain ⟨⟨b, f⟩, hb, rfl⟩ := get_axesMap (fun p : U64 × U64 => axis p.1 p.2) hl
    have hq := mem_tags_of_get hb
    obtain ⟨y, hy, hqy⟩ := List.mem_flatMap.1 (hp.mem_iff.2 hq)
    obtain ⟨x, hx⟩ := get_ok_iff_mem_tags.2 hqy
    have hex : get q e = .ok x := by rw [e2 q hq y hy hqy, hx]
    refine ⟨x - b, x, v3 q b f hb y hy x hx, hex, ?_⟩
    have := hin q hq
    rw [lo_ok hb, hi_ok hb, idx_ok hex] at this
    show (axis b f)[(x - b).toNat]? = some x
    have hsub : (x - b).toNat = x.toNat - b.toNat := by
      rw [BitVec.toNat_sub]; have := x.isLt; have := b.isLt; omega
    rw [hsub, axis_getElem? (by omega)]
    congr 1
    apply BitVec.eq_of_toNat_eq
    rw [BitVec.toNat_add, BitVec.toNat_ofNat]
    have := x.isLt
    omega
  select d hd qs hqs hsub := by
    have ht : Tup.tags (axes d) = Tup.tags d := tags_axes d
    rw [ht] at hsub
    obtain ⟨r, r1, r2, r3⟩ := Dom.ofDomains_ok (qs := qs) (ds := [d]) hqs (by simpa using hd.1)
      (fun q hq => Dom.ownedOnce_singleton (hsub q hq))
    have hg : ∀ q ∈ qs, get q r = get q d := fun q hq => r3 q hq d (by simp) (hsub q hq)
    refine ⟨r, r1, ?_, by rw [← r2]; exact tags_axes r, ?_⟩
    · rw [valid_iff_get, r2]
      refine ⟨hqs, fun q x hx => ?_⟩
      have hq : q ∈ qs := r2 ▸ mem_tags_of_get hx
      rw [hg q hq] at hx
      exact ((valid_iff_get d).1 hd).2 q x hx
    · intro q hq
      simp only [axes]
      rw [get_map_snd q (fun p : U64 × U64 => axis p.1 p.2) r, get_map_snd q (fun p : U64 × U64 => axis p.1 p.2) d,
        hg q hq]

/-- Strided domains whose membership test is exact (see C13). -/
def Spec.SSafe (d : SDom τ) : Prop := SValid d ∧ ∀ q ∈ tags d, SafeAxis q d

theorem ssafe_iff_get (d : SDom τ) : SSafe d ↔ (tags d).Nodup ∧
    ∀ q x, get q d = .ok x → (0 ≤ x.2.1.toInt ∧ 1 ≤ x.2.2.toInt ∧ x.2.1.toInt * x.2.2.toInt < 2 ^ 63 ∧
      (x.1.toNat : Int) + x.2.1.toInt * x.2.2.toInt < 2 ^ 64) ∧ (1 ≤ x.2.1.toInt ∨ x.2.2.toInt ≤ x.1.toNat + 1) := by
  rw [SSafe, svalid_iff_get]
  constructor
  · rintro ⟨⟨h1, h2⟩, h3⟩
    refine ⟨h1, fun q x hx => ⟨h2 q x hx, ?_⟩⟩
    have := h3 q (mem_tags_of_get hx)
    obtain ⟨b, n, s⟩ := x
    rwa [SafeAxis, SDom.count_ok hx, SDom.step_ok hx, SDom.first_ok hx] at this
  · rintro ⟨h1, h2⟩
    refine ⟨⟨h1, fun q x hx => (h2 q x hx).1⟩, ?_⟩
    intro q hq
    obtain ⟨⟨b, n, s⟩, hx⟩ := get_ok_iff_mem_tags.2 hq
    rw [SafeAxis, SDom.count_ok hx, SDom.step_ok hx, SDom.first_ok hx]
    exact (h2 q _ hx).2

theorem cart_inGrid {d : SDom τ} (hd : SValid d) {e : Elem τ} (ht : tags e = tags d) :
    e ∈ cart (saxes d) ↔ InGrid d e := by
  rw [mem_cart_saxes hd]
  exact ⟨fun h => h.2, fun h => ⟨ht, h⟩⟩

theorem spanKind_strided : SpanKind (SDom.spanOps (τ := τ)) saxes SSafe where
  tags d _ := (tags_saxes d).symm
  nodup d hd := by have ht : Tup.tags (saxes d) = Tup.tags d := tags_saxes d; rw [ht]; exact hd.1.1
  sorted d hd a ha := by
    obtain ⟨⟨t, b, n, s⟩, hm, rfl⟩ := List.mem_map.1 ha
    exact progression_sorted hd.1 (get_of_mem hd.1.1 hm)
  small d hd := (grid_strided hd.1).small
  extents d hd := (grid_strided hd.1).extents
  size d hd := by rw [← scard_eq hd.1.1]; exact SDom.size_ok d hd.1
  contains d hd es e hp he := by
    have ht : Tup.tags (saxes d) = Tup.tags d := tags_saxes d
    rw [ht] at hp he
    obtain ⟨e1, e2⟩ := merged_get hd.1.1 hp he
    obtain ⟨c, g1, g2⟩ := SDom.contains_ok hd.1 hd.2 hp he
    exact ⟨c, g1, g2.trans (cart_inGrid hd.1 e1).symm⟩
  locate d hd es e hp he hin := by
    have ht : Tup.tags (saxes d) = Tup.tags d := tags_saxes d
    rw [ht] at hp he
    obtain ⟨e1, e2⟩ := merged_get hd.1.1 hp he
    rw [cart_inGrid hd.1 e1] at hin
    obtain ⟨v, v1, v2, v3⟩ := SDom.distance_ok hd.1 hd.2 hp he hin
    refine ⟨v, v1, by rw [ht, v2], picks_of_get (by rw [ht]; exact hd.1.1) (by rw [ht, v2]) (by rw [ht, e1]) ?_⟩
    intro q l hl
    obtain ⟨⟨b, n, s⟩, hb, rfl⟩ := get_axesMap (fun p : U64 × I64 × I64 => progression p.1 p.2.1 p.2.2) hl
    have hq := mem_tags_of_get hb
    obtain ⟨x, hx⟩ := get_ok_iff_mem_tags.2 (e1 ▸ hq)
    obtain ⟨i, hi⟩ := get_ok_iff_mem_tags.2 (v2 ▸ hq)
    refine ⟨i, x, hi, hx, ?_⟩
    have h3 := v3 q hq
    rw [idx_ok hx, SDom.first_ok hb, SDom.step_ok hb, SDom.count_ok hb, disp_ok hi] at h3
    have hti : (i.toNat : Int) = i.toInt := by
      have := BitVec.toInt_eq_toNat_cond i
      have := i.isLt
      split at * <;> omega
    show (progression b n s)[i.toNat]? = some x
    rw [progression_getElem? (by omega)]
    congr 1
    apply BitVec.eq_of_toNat_eq
    rw [hti, ← h3.1, BitVec.toNat_ofInt]
    have := x.isLt
    omega
  select d hd qs hqs hsub := by
    have ht : Tup.tags (saxes d) = Tup.tags d := tags_saxes d
    rw [ht] at hsub
    obtain ⟨r, r1, r2, r3⟩ := SDom.ofDomains_ok (qs := qs) (ds := [d]) hqs
      (fun q hq => Dom.ownedOnce_singleton (hsub q hq))
    have hg : ∀ q ∈ qs, get q r = get q d := fun q hq => r3 q hq d (by simp) (hsub q hq)
    refine ⟨r, r1, ?_, by rw [← r2]; exact tags_saxes r, ?_⟩
    · rw [ssafe_iff_get, r2]
      refine ⟨hqs, fun q x hx => ?_⟩
      have hq : q ∈ qs := r2 ▸ mem_tags_of_get hx
      rw [hg q hq] at hx
      exact ((ssafe_iff_get d).1 hd).2 q x hx
    · intro q hq
      simp only [saxes]
      rw [get_map_snd q (fun p : U64 × I64 × I64 => progression p.1 p.2.1 p.2.2) r,
        get_map_snd q (fun p : U64 × I64 × I64 => progression p.1 p.2.1 p.2.2) d, hg q hq]

theorem sparse_sizeAux (l : List (List U64)) (acc : U64) (k : Nat) (h : acc.toNat = k % 2 ^ 64) :
    (SpDom.sizeAux l acc).toNat = (k * (l.map List.length).prod) % 2 ^ 64 := by
  induction l generalizing acc k with
  | nil => simpa [SpDom.sizeAux] using h
  | cons x l ih =>
    simp only [SpDom.sizeAux, List.map_cons, List.prod_cons]
    rw [ih _ (k * x.length)]
    · rw [Nat.mul_assoc]
    · rw [BitVec.toNat_mul, h, BitVec.toNat_ofNat, ← Nat.mul_mod]

theorem spanKind_sparse : SpanKind (SpDom.spanOps (τ := τ)) id SpValid where
  tags d _ := rfl
  nodup d hd := hd.1
  sorted d hd a ha := (hd.2 a.1 a.2 (get_of_mem hd.1 ha)).1
  small d hd a ha := (hd.2 a.1 a.2 (get_of_mem hd.1 ha)).2
  extents d hd := rfl
  size d hd := by
    refine ⟨_, rfl, ?_⟩
    rw [SpDom.size, sparse_sizeAux _ 1 1 (by decide), vals, List.map_map, Nat.one_mul]; rfl
  contains d hd es e hp he := by
    obtain ⟨e1, e2⟩ := merged_get hd.1 hp he
    obtain ⟨c, g1, g2⟩ := SpDom.contains_ok hd hp he
    exact ⟨c, g1, g2.trans (cart_inSparse hd e1).symm⟩
  locate d hd es e hp he hin := by
    obtain ⟨e1, e2⟩ := merged_get hd.1 hp he
    rw [id, cart_inSparse hd e1] at hin
    obtain ⟨v, v1, v2, v3⟩ := SpDom.distance_ok hd hp he hin
    refine ⟨v, v1, v2, picks_of_get hd.1 v2 e1 ?_⟩
    intro q l hl
    obtain ⟨x, y, h1, h2, _, h4⟩ := v3 q l hl
    exact ⟨x, y, h1, h2, h4⟩
  select d hd qs hqs hsub := by
    obtain ⟨r, r1, r2, r3⟩ := ofTuples_ok (qs := qs) (xs := [d]) (fun q hq => Dom.ownedOnce_singleton (hsub q hq))
    have hg : ∀ q ∈ qs, get q r = get q d := fun q hq => r3 q hq d (by simp) (hsub q hq)
    refine ⟨r, ?_, ?_, r2, hg⟩
    · simp [SpDom.spanOps, SpDom.ofDomains, (TypeSeq.isUnique_iff qs).2 hqs, r1]
    · refine ⟨r2 ▸ hqs, fun q l hl => ?_⟩
      have hq : q ∈ qs := r2 ▸ mem_tags_of_get hl
      exact hd.2 q l (hg q hq ▸ hl)

end DDC
