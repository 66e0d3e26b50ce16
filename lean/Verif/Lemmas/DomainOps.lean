import Verif.Lemmas.Domain

set_option linter.unusedSectionVars false

namespace DDC

variable {τ α β γ : Type} [DecidableEq τ]

namespace Dom
open Tup Spec

theorem front_add_extents (d : Dom τ) (hd : (tags d).Nodup) :
    ∃ n, extents d = .ok n ∧ Elem.addVec (front d) n = .ok (fin d) := by
  obtain ⟨n, h1, h2, h3⟩ := extents_ok d
  obtain ⟨e, g1, g2, _, g4⟩ := Elem.addVec_spec (e := beg d) (v := n)
    (by rw [tags_beg]; exact hd) (by rw [h2]; exact hd) (by intro q hq; rwa [tags_beg, ← h2])
  refine ⟨n, h1, ?_⟩
  rw [front, g1]; congr 1
  refine ext_get' (by rw [g2, tags_beg, tags_fin]) (by rw [g2, tags_beg]; exact hd) ?_
  intro q v hv
  have hq : q ∈ tags d := by
    have := mem_tags_of_get hv
    rwa [g2, tags_beg] at this
  obtain ⟨⟨b, f⟩, h⟩ := get_ok_iff_mem_tags.2 hq
  rw [g4 q b (f - b) (get_beg_ok h) (h3 q b f h), BitVec.add_comm, BitVec.sub_add_cancel] at hv
  rw [get_fin_ok h, hv]

theorem ownedOnce_map {f : α → β} {q : τ} {xs : List (Tup τ α)} (h : OwnedOnce q xs) :
    OwnedOnce q (xs.map (fun d => d.map (fun p => (p.1, f p.2)))) := by
  obtain ⟨l, x, r, rfl, h1, h2, h3⟩ := h
  refine ⟨l.map (fun d => d.map (fun p => (p.1, f p.2))), x.map (fun p => (p.1, f p.2)),
    r.map (fun d => d.map (fun p => (p.1, f p.2))), by simp, by simpa using h1, ?_, ?_⟩
  · intro y hy
    obtain ⟨z, hz, rfl⟩ := List.mem_map.1 hy
    simpa using h2 z hz
  · intro y hy
    obtain ⟨z, hz, rfl⟩ := List.mem_map.1 hy
    simpa using h3 z hz

/-- Meaning of the merging constructor. -/
theorem ofDomains_ok {qs : List τ} {ds : List (Dom τ)} (hqs : qs.Nodup)
    (hds : ∀ d ∈ ds, (tags d).Nodup) (h : ∀ q ∈ qs, OwnedOnce q ds) :
    ∃ r, ofDomains qs ds = .ok r ∧ tags r = qs ∧
      ∀ q ∈ qs, ∀ d ∈ ds, q ∈ tags d → get q r = get q d := by
  obtain ⟨b, b1, b2, b3⟩ := ofTuples_ok (xs := ds.map beg) (fun q hq => ownedOnce_map (f := Prod.fst) (h q hq))
  obtain ⟨e, e1, e2, e3⟩ := ofTuples_ok (xs := ds.map fin) (fun q hq => ownedOnce_map (f := Prod.snd) (h q hq))
  have hes : ds.mapM (fun d => do let n ← extents d; Elem.addVec (front d) n) = .ok (ds.map fin) := by
    refine mapM_ok ?_
    intro d hd
    obtain ⟨n, h1, h2⟩ := front_add_extents d (hds d hd)
    simp [h1, h2]
  obtain ⟨r, r1, r2, r3⟩ := mk_ok (b := b) (e := e) (by rw [b2]; exact hqs) (by intro q hq; rwa [e2, ← b2])
  refine ⟨r, ?_, by rw [r2, b2], ?_⟩
  · simp only [ofDomains]
    have : ds.map front = ds.map beg := rfl
    rw [this, b1, hes]
    simp only [Res.ok_bind]
    rw [e1]
    simp only [Res.ok_bind]
    exact r1
  · intro q hq d hd hqd
    obtain ⟨⟨x, y⟩, hxy⟩ := get_ok_iff_mem_tags.2 hqd
    rw [hxy]
    refine r3 q x y ?_ ?_
    · rw [b3 q hq (beg d) (List.mem_map_of_mem hd) (by rw [tags_beg]; exact hqd), get_beg_ok hxy]
    · rw [e3 q hq (fin d) (List.mem_map_of_mem hd) (by rw [tags_fin]; exact hqd), get_fin_ok hxy]

theorem ofDomains_ill {qs : List τ} {ds : List (Dom τ)} {q : τ} (hq : q ∈ qs)
    (h : ¬ OwnedOnce q ds) : ∀ r, ofDomains qs ds ≠ .ok r := by
  intro r hr
  simp only [ofDomains, Res.bind_eq_ok] at hr
  obtain ⟨b, hb, _⟩ := hr
  refine h ?_
  obtain ⟨l, x, rr, h1, h2, h3, h4⟩ := ofTuples_inv hb q hq
  obtain ⟨l', r', rfl, rfl, h5⟩ := List.map_eq_append_iff.1 h1
  obtain ⟨x', rr', rfl, rfl, rfl⟩ := List.map_eq_cons_iff.1 h5
  refine ⟨l', x', rr', rfl, by rwa [front, tags_beg] at h2, ?_, ?_⟩
  · intro y hy
    have := h3 (front y) (List.mem_map_of_mem hy)
    rwa [front, tags_beg] at this
  · intro y hy
    have := h4 (front y) (List.mem_map_of_mem hy)
    rwa [front, tags_beg] at this

theorem ownedOnce_singleton {q : τ} {d : Tup τ α} (h : q ∈ tags d) : OwnedOnce q [d] :=
  ⟨[], d, [], rfl, h, by simp, by simp⟩

theorem ownedOnce_pair_left {q : τ} {d e : Tup τ α} (h : q ∈ tags d) (h' : q ∉ tags e) :
    OwnedOnce q [d, e] := ⟨[], d, [e], rfl, h, by simp, by simpa using h'⟩

theorem ownedOnce_pair_right {q : τ} {d e : Tup τ α} (h : q ∉ tags d) (h' : q ∈ tags e) :
    OwnedOnce q [d, e] := ⟨[d], e, [], rfl, h', by simpa using h, by simp⟩

theorem lo_congr {q : τ} {d e : Dom τ} (h : get q d = get q e) : lo q d = lo q e := by
  simp [lo, h]
theorem hi_congr {q : τ} {d e : Dom τ} (h : get q d = get q e) : hi q d = hi q e := by
  simp [hi, h]

theorem valid_of_get {d : Dom τ} (hnd : (tags d).Nodup)
    (h : ∀ q ∈ tags d, ∃ d', Valid d' ∧ q ∈ tags d' ∧ get q d = get q d') : Valid d := by
  refine ⟨hnd, ?_⟩
  intro q hq
  obtain ⟨d', hv, hq', hg⟩ := h q hq
  have := hv.2 q hq'
  rw [len] at *
  rw [lo_congr hg, hi_congr hg]; exact this

/-- In a valid domain the data of a tag. -/
theorem valid_get {d : Dom τ} (hv : Valid d) {q : τ} {b e : U64} (h : get q d = .ok (b, e)) :
    b.toNat ≤ e.toNat ∧ e.toNat - b.toNat < 2 ^ 63 ∧ (e - b).toInt = (e.toNat : Int) - b.toNat := by
  have := hv.2 q (mem_tags_of_get h)
  rw [len, lo_ok h, hi_ok h] at this
  exact ⟨this.1, this.2, toInt_sub_of_le this.1 this.2⟩

end Dom
end DDC

namespace DDC.Dom
open Tup Spec

variable {τ α β γ : Type} [DecidableEq τ]

theorem at_ok {d : Dom τ} (hd : (tags d).Nodup) {v : Vect τ} (ht : tags v = tags d) :
    ∃ e, at' d v = .ok e ∧ tags e = tags d ∧
      ∀ q b f x, get q d = .ok (b, f) → get q v = .ok x → get q e = .ok (b + x) := by
  obtain ⟨e, h1, h2, _, h4⟩ := Elem.addVec_spec (e := beg d) (v := v)
    (by rw [tags_beg]; exact hd) (by rw [ht]; exact hd) (by intro q hq; rwa [tags_beg, ← ht])
  refine ⟨e, by simp [at', ht, h1], by rw [h2, tags_beg], ?_⟩
  intro q b f x hb hx
  exact h4 q b x (get_beg_ok hb) hx

theorem distance_ok {d : Dom τ} (hd : (tags d).Nodup) {es : List (Elem τ)}
    (hp : (es.flatMap tags).Perm (tags d)) :
    ∃ v, distanceFromFront d es = .ok v ∧ tags v = tags d ∧
      ∀ q b f, get q d = .ok (b, f) → ∀ e ∈ es, ∀ x, get q e = .ok x → get q v = .ok (x - b) := by
  obtain ⟨e, h1, h2, h3⟩ := ofTuples_ok (ownedOnce_of_perm hd hp)
  have hl : d.length = (es.map List.length).sum := by
    rw [← length_tags d]; exact sum_length_of_perm hp
  let g : τ → I64 := fun q =>
    match get q e, get q d with | .ok x, .ok (b, _) => x - b | _, _ => 0
  have hm : (tags d).mapM (fun q => do
      let x ← Tup.take q es
      let x' ← Tup.select [q] x
      let b ← Tup.select [q] (beg d)
      Elem.sub x' b) = .ok ((tags d).map (fun q => [(q, g q)])) := by
    refine mapM_ok (g := fun q => [(q, g q)]) ?_
    intro q hq
    obtain ⟨⟨b, f⟩, hb⟩ := get_ok_iff_mem_tags.2 hq
    obtain ⟨l, x, r, rfl, hx, hl, hr⟩ := ownedOnce_of_perm hd hp q hq
    obtain ⟨v, hv⟩ := get_ok_iff_mem_tags.2 hx
    have he : get q e = .ok v := by rw [h3 q hq x (by simp) hx, hv]
    simp [take_ok hx hl hr, select_one hv, select_one (get_beg_ok hb), Elem.sub, TypeSeq.same,
      TypeSeq.contains, zipVals, g, he, hb]
  refine ⟨(tags d).map (fun q => (q, g q)), ?_, by simp, ?_⟩
  · simp only [distanceFromFront, hl, decide_true, Res.guardIll_true, Res.ok_bind]
    rw [hm]
    simp only [Res.ok_bind]
    exact ofTuples_singletons hd (fun _ h => h)
  · intro q b f hb x hx y hy
    have hq := mem_tags_of_get hb
    rw [get_map_tags hq]
    have he : get q e = .ok y := by rw [h3 q hq x hx (mem_tags_of_get hy), hy]
    simp [g, he, hb]

end DDC.Dom

namespace DDC.Dom
open Tup Spec

variable {τ α β γ : Type} [DecidableEq τ]

theorem allCmp_ok {op : Elem τ → Elem τ → Res Bool} {R : U64 → U64 → Bool}
    (hop : ∀ q x y, op [(q, x)] [(q, y)] = .ok (R x y)) {a b : Elem τ} {qs : List τ}
    (ha : ∀ q ∈ qs, q ∈ tags a) (hb : ∀ q ∈ qs, q ∈ tags b) :
    ∃ c, allCmp op a b qs = .ok c ∧
      (c = true ↔ ∀ q ∈ qs, ∀ x y, get q a = .ok x → get q b = .ok y → R x y = true) := by
  induction qs with
  | nil => exact ⟨true, rfl, by simp⟩
  | cons q qs ih =>
    obtain ⟨c, h1, h2⟩ := ih (fun p hp => ha p (by simp [hp])) (fun p hp => hb p (by simp [hp]))
    obtain ⟨x, hx⟩ := get_ok_iff_mem_tags.2 (ha q (by simp))
    obtain ⟨y, hy⟩ := get_ok_iff_mem_tags.2 (hb q (by simp))
    refine ⟨R x y && c, by simp [allCmp, select_one hx, select_one hy, hop, h1], ?_⟩
    rw [Bool.and_eq_true, h2]
    simp only [List.mem_cons, forall_eq_or_imp, hx, hy]
    refine and_congr_left fun _ => ?_
    constructor
    · intro h x' y' e1 e2
      injection e1 with e1; injection e2 with e2; subst e1; subst e2; exact h
    · intro h; exact h x y rfl rfl

theorem selectOr_ok {q : τ} {x d : Tup τ α} :
    selectOr q x d = if q ∈ tags x then (match get q x with | .ok v => .ok [(q, v)] | _ => .ub) else .ok d := by
  by_cases h : q ∈ tags x
  · obtain ⟨v, hv⟩ := get_ok_iff_mem_tags.2 h
    simp [selectOr, h, select_one hv, hv]
  · simp [selectOr, h]

/-- Meaning of `restrict_with` without its assertions. -/
theorem restrictWithCore_ok {d o : Dom τ} (hd : (tags d).Nodup) :
    ∃ r, restrictWithCore d o = .ok r ∧ tags r = tags d ∧
      ∀ q ∈ tags d, get q r = if q ∈ tags o then get q o else get q d := by
  cases d with
  | nil => exact ⟨[], rfl, rfl, by simp⟩
  | cons p0 d0 =>
    generalize hdd : p0 :: d0 = d at *
    obtain ⟨mx, m1, m2, m3⟩ := extents_ok d
    obtain ⟨ox, o1, o2, o3⟩ := extents_ok o
    let gb : τ → U64 := fun q =>
      if q ∈ tags o then (match get q o with | .ok (b, _) => b | _ => 0)
      else (match get q d with | .ok (b, _) => b | _ => 0)
    let gn : τ → U64 := fun q =>
      if q ∈ tags o then (match get q o with | .ok (b, e) => e - b | _ => 0)
      else (match get q d with | .ok (b, e) => e - b | _ => 0)
    have hb : (tags d).mapM (fun q => do
        let dflt ← Tup.select [q] (beg d)
        Tup.selectOr q (beg o) dflt) = .ok ((tags d).map (fun q => [(q, gb q)])) := by
      refine mapM_ok (g := fun q => [(q, gb q)]) ?_
      intro q hq
      obtain ⟨⟨b, e⟩, h⟩ := get_ok_iff_mem_tags.2 hq
      by_cases hqo : q ∈ tags o
      · obtain ⟨⟨b', e'⟩, h'⟩ := get_ok_iff_mem_tags.2 hqo
        simp [select_one (get_beg_ok h), selectOr_ok, tags_beg, hqo, get_beg_ok h', gb, h']
      · simp [select_one (get_beg_ok h), selectOr_ok, tags_beg, hqo, gb, h]
    have hn : (tags d).mapM (fun q => do
        let dflt ← Tup.select [q] mx
        Tup.selectOr q ox dflt) = .ok ((tags d).map (fun q => [(q, gn q)])) := by
      refine mapM_ok (g := fun q => [(q, gn q)]) ?_
      intro q hq
      obtain ⟨⟨b, e⟩, h⟩ := get_ok_iff_mem_tags.2 hq
      by_cases hqo : q ∈ tags o
      · obtain ⟨⟨b', e'⟩, h'⟩ := get_ok_iff_mem_tags.2 hqo
        simp [select_one (m3 q b e h), selectOr_ok, o2, hqo, o3 q b' e' h', gn, h']
      · simp [select_one (m3 q b e h), selectOr_ok, o2, hqo, gn, h]
    obtain ⟨r, r1, r2, r3⟩ := ofSize_ok (b := (tags d).map (fun q => (q, gb q)))
      (n := (tags d).map (fun q => (q, gn q))) (by simpa using hd) (by simp)
    refine ⟨r, ?_, by simpa using r2, ?_⟩
    · have : restrictWithCore d o = (do
          let mx ← extents d
          let ox ← extents o
          let bs ← (tags d).mapM (fun q => do
            let dflt ← Tup.select [q] (beg d)
            Tup.selectOr q (beg o) dflt)
          let ns ← (tags d).mapM (fun q => do
            let dflt ← Tup.select [q] mx
            Tup.selectOr q ox dflt)
          let b ← Tup.ofTuples (tags d) bs
          let n ← Tup.ofTuples (tags d) ns
          ofSize b n) := by rw [← hdd]; rfl
      rw [this, m1, o1, hb]
      simp only [Res.ok_bind]
      rw [hn]
      simp only [Res.ok_bind]
      rw [ofTuples_singletons hd (fun _ h => h), ofTuples_singletons hd (fun _ h => h)]
      exact r1
    · intro q hq
      have := r3 q (gb q) (gn q) (get_map_tags hq) (get_map_tags hq)
      rw [this]
      obtain ⟨⟨b, e⟩, h⟩ := get_ok_iff_mem_tags.2 hq
      by_cases hqo : q ∈ tags o
      · obtain ⟨⟨b', e'⟩, h'⟩ := get_ok_iff_mem_tags.2 hqo
        simp only [gb, gn, hqo, if_true, h']
        rw [BitVec.add_comm, BitVec.sub_add_cancel]
      · simp only [gb, gn, hqo, if_false, h]
        rw [BitVec.add_comm, BitVec.sub_add_cancel]

end DDC.Dom
