import Verif.Lemmas.Block

/-!
# Contiguous and strided domains as instances of `BlockAxes`
-/

namespace DDC

open Tup Spec

variable {τ : Type} [DecidableEq τ]

theorem get_axesMap {α : Type} (ax : α → List U64) {q : τ} {d : Tup τ α} {l : List U64}
    (h : get q (d.map (fun p => (p.1, ax p.2))) = .ok l) : ∃ x, get q d = .ok x ∧ ax x = l := by
  rw [get_map_snd q ax d] at h
  cases hd : get q d with
  | ok x => rw [hd] at h; exact ⟨x, rfl, Res.ok.inj h⟩
  | _ => rw [hd] at h; cases h

/-- Instances of `BlockAxes` for domains stored per dimension. -/
theorem blockAxes_of {α : Type} {ops : BlockOps τ (Tup τ α)} (ax : α → List U64) (P : α → Prop)
    {V : Tup τ α → Prop} (hV : ∀ d, V d ↔ (tags d).Nodup ∧ ∀ q x, get q d = .ok x → P x)
    (hsmall : ∀ x, P x → (ax x).length < 2 ^ 63)
    (htags : ∀ d, ops.tags d = tags d)
    (hexts : ∀ d, V d → ops.extents d = .ok (d.map (fun p => (p.1, (BitVec.ofNat 64 (ax p.2).length : I64)))))
    (hext : ∀ d q x, V d → get q d = .ok x → ops.extent q d = .ok [(q, BitVec.ofNat 64 (ax x).length)])
    (hmerge : ∀ (qs : List τ) (ds : List (Tup τ α)), qs.Nodup → (∀ d ∈ ds, (tags d).Nodup) →
      (∀ q ∈ qs, OwnedOnce q ds) → ∃ r, ops.merge qs ds = .ok r ∧ tags r = qs ∧
        ∀ q ∈ qs, ∀ d ∈ ds, q ∈ tags d → get q r = get q d)
    (htake : ∀ q x (n : Nat), P x → n ≤ (ax x).length →
      ∃ y, ops.takeFirst [(q, x)] [(q, BitVec.ofNat 64 n)] = .ok [(q, y)] ∧ P y ∧ ax y = (ax x).take n)
    (hdrop : ∀ q x (n : Nat), P x → n ≤ (ax x).length →
      ∃ y, ops.removeFirst [(q, x)] [(q, BitVec.ofNat 64 n)] = .ok [(q, y)] ∧ P y ∧ ax y = (ax x).drop n) :
    BlockAxes ops (fun d => d.map (fun p => (p.1, ax p.2))) V := by
  have hone : ∀ (d : Tup τ α) (q : τ) (l : List U64), d.map (fun p => (p.1, ax p.2)) = [(q, l)] →
      ∃ x, d = [(q, x)] ∧ ax x = l := by
    intro d q l h
    match d, h with
    | [(t, x)], h =>
      simp only [List.map_cons, List.map_nil, List.cons.injEq, Prod.mk.injEq, and_true] at h
      obtain ⟨rfl, rfl⟩ := h
      exact ⟨x, rfl, rfl⟩
  have hsingle : ∀ (q : τ) (y : α), P y → V [(q, y)] := by
    intro q y hy
    rw [hV]
    refine ⟨by simp, ?_⟩
    intro q' x hx
    rw [get_cons] at hx
    split at hx
    · rw [← Res.ok.inj hx]; exact hy
    · cases hx
  refine ⟨?_, ?_, ?_, ?_, ?_, ?_, ?_, ?_, ?_⟩
  · intro d _; rw [htags, tags_map_snd ax d]
  · intro d hd; rw [tags_map_snd ax d]; exact ((hV d).1 hd).1
  · intro d q l hd hg
    obtain ⟨x, hx, rfl⟩ := get_axesMap ax hg
    exact hsmall x (((hV d).1 hd).2 q x hx)
  · intro d hd
    rw [hexts d hd, List.map_map]; rfl
  · intro d q l hd hg
    obtain ⟨x, hx, rfl⟩ := get_axesMap ax hg
    exact hext d q x hd hx
  · intro d q l hd hg
    obtain ⟨x, hx, rfl⟩ := get_axesMap ax hg
    have hvd := (hV d).1 hd
    have hq := mem_tags_of_get hx
    obtain ⟨r, r1, r2, r3⟩ := hmerge [q] [d] (by simp) (by simpa using hvd.1)
      (by simpa using Dom.ownedOnce_singleton hq)
    have hr : r = [(q, x)] := by
      refine ext_get (by rw [r2]; rfl) (by rw [r2]; simp) ?_
      intro q' hq'
      rw [r2, List.mem_singleton] at hq'
      subst hq'
      rw [r3 q' (by simp) d (by simp) hq, hx, get_cons, if_pos rfl]
    subst hr
    exact ⟨_, r1, hsingle q x (hvd.2 q x hx), rfl⟩
  · intro d q l n hd hax hn
    obtain ⟨x, rfl, rfl⟩ := hone d q l hax
    obtain ⟨y, y1, y2, y3⟩ := htake q x n (((hV _).1 hd).2 q x (by rw [get_cons, if_pos rfl])) hn
    exact ⟨_, y1, hsingle q y y2, by simp [y3]⟩
  · intro d q l n hd hax hn
    obtain ⟨x, rfl, rfl⟩ := hone d q l hax
    obtain ⟨y, y1, y2, y3⟩ := hdrop q x n (((hV _).1 hd).2 q x (by rw [get_cons, if_pos rfl])) hn
    exact ⟨_, y1, hsingle q y y2, by simp [y3]⟩
  · intro axs ds hnd hds
    have hshape : ∃ xs : Tup τ α, ds = xs.map (fun p => [p]) ∧ xs.map (fun p => (p.1, ax p.2)) = axs ∧
        ∀ p ∈ xs, P p.2 := by
      clear hnd
      induction hds with
      | nil => exact ⟨[], rfl, rfl, by simp⟩
      | cons h _ ih =>
        rename_i d a ds axs _
        obtain ⟨q, l⟩ := a
        obtain ⟨xs, rfl, rfl, h3⟩ := ih
        obtain ⟨x, rfl, rfl⟩ := hone d q l h.2
        refine ⟨(q, x) :: xs, rfl, rfl, ?_⟩
        intro p hp
        rcases List.mem_cons.1 hp with rfl | hp
        · exact ((hV _).1 h.1).2 q x (by rw [get_cons, if_pos rfl])
        · exact h3 p hp
    obtain ⟨xs, rfl, rfl, hP⟩ := hshape
    rw [tags_map_snd ax xs] at hnd ⊢
    obtain ⟨r, r1, r2, r3⟩ := hmerge (tags xs) (xs.map (fun p => [p])) hnd (by
        intro d hd; obtain ⟨p, _, rfl⟩ := List.mem_map.1 hd; simp) (by
        intro q hq
        obtain ⟨p, hp, rfl⟩ := List.mem_map.1 hq
        obtain ⟨l, rr, rfl⟩ := List.append_of_mem hp
        refine ⟨l.map (fun p => [p]), [p], rr.map (fun p => [p]), by simp, by simp, ?_, ?_⟩
        · intro y hy
          obtain ⟨p', hp', rfl⟩ := List.mem_map.1 hy
          simp only [tags, List.map_append, List.map_cons] at hnd
          have := (List.nodup_append.1 hnd).2.2 p'.1 (List.mem_map_of_mem hp') p.1 (by simp)
          simp only [tags, List.map_cons, List.map_nil, List.mem_singleton]
          exact fun h => this h.symm
        · intro y hy
          obtain ⟨p', hp', rfl⟩ := List.mem_map.1 hy
          simp only [tags, List.map_append, List.map_cons] at hnd
          have := (List.nodup_cons.1 (List.nodup_append.1 hnd).2.1).1
          simp only [tags, List.map_cons, List.map_nil, List.mem_singleton]
          exact fun h => this (h ▸ List.mem_map_of_mem hp'))
    have hr : r = xs := by
      refine ext_get r2 (by rw [r2]; exact hnd) ?_
      intro q hq
      rw [r2] at hq
      obtain ⟨x, hx⟩ := get_ok_iff_mem_tags.2 hq
      have hm := get_mem hx
      rw [r3 q hq [(q, x)] (List.mem_map_of_mem (f := fun p => [p]) hm) (by simp), hx, get_cons, if_pos rfl]
    subst hr
    refine ⟨r, r1, (hV r).2 ⟨hnd, ?_⟩, rfl⟩
    intro q x hx
    exact hP (q, x) (get_mem hx)

/-! ## Contiguous domains -/

theorem valid_iff_get (d : Dom τ) : Valid d ↔ (tags d).Nodup ∧
    ∀ q x, get q d = .ok x → x.1.toNat ≤ x.2.toNat ∧ x.2.toNat - x.1.toNat < 2 ^ 63 := by
  constructor
  · intro h
    refine ⟨h.1, ?_⟩
    rintro q ⟨b, e⟩ hx
    have := Dom.valid_get h hx
    exact ⟨this.1, this.2.1⟩
  · rintro ⟨h1, h2⟩
    refine ⟨h1, ?_⟩
    intro q hq
    obtain ⟨⟨b, e⟩, h⟩ := get_ok_iff_mem_tags.2 hq
    rw [len, lo_ok h, hi_ok h]
    exact h2 q (b, e) h

theorem length_axis (b e : U64) : (axis b e).length = e.toNat - b.toNat := by simp [axis]

theorem axis_take {b e : U64} (h : b.toNat ≤ e.toNat) {n : Nat} (hn : n ≤ e.toNat - b.toNat) :
    axis b (b + BitVec.ofNat 64 n) = (axis b e).take n := by
  have h1 := b.isLt; have h2 := e.isLt
  have hs : (b + BitVec.ofNat 64 n).toNat = b.toNat + n := by
    rw [BitVec.toNat_add, BitVec.toNat_ofNat]; omega
  simp only [axis, hs, ← List.map_take, List.take_range, show b.toNat + n - b.toNat = n by omega]
  rw [Nat.min_eq_left hn]

theorem axis_drop {b e : U64} (h : b.toNat ≤ e.toNat) {n : Nat} (hn : n ≤ e.toNat - b.toNat) :
    axis (b + BitVec.ofNat 64 n) e = (axis b e).drop n := by
  have h1 := b.isLt; have h2 := e.isLt
  have hs : (b + BitVec.ofNat 64 n).toNat = b.toNat + n := by
    rw [BitVec.toNat_add, BitVec.toNat_ofNat]; omega
  refine List.ext_getElem (by simp [axis, hs]; omega) ?_
  intro i h1 h2
  simp only [axis, List.getElem_map, List.getElem_range, List.getElem_drop]
  rw [BitVec.add_assoc]
  congr 1
  apply BitVec.eq_of_toNat_eq
  simp

theorem blockAxes_dom : BlockAxes (Dom.blockOps (τ := τ)) axes Valid := by
  refine blockAxes_of (fun p : U64 × U64 => axis p.1 p.2)
    (fun x => x.1.toNat ≤ x.2.toNat ∧ x.2.toNat - x.1.toNat < 2 ^ 63) valid_iff_get ?_ ?_ ?_ ?_ ?_ ?_ ?_
  · intro x hx; rw [length_axis]; exact hx.2
  · intro d; rfl
  · intro d hd
    have := (grid_dom hd).extents
    simp only [axes, List.map_map] at this
    exact this
  · rintro d q ⟨b, e⟩ hd hx
    obtain ⟨h1, h2, h3⟩ := Dom.valid_get hd hx
    simp only [Dom.blockOps, Dom.extent_ok hx, length_axis]
    congr 3
    apply BitVec.eq_of_toNat_eq
    rw [BitVec.toNat_sub, BitVec.toNat_ofNat]
    have := e.isLt
    omega
  · intro qs ds h1 h2 h3; exact Dom.ofDomains_ok h1 h2 h3
  · rintro q ⟨b, e⟩ n ⟨h1, h2⟩ hn
    simp only [length_axis] at hn
    have h3 := e.isLt
    refine ⟨(b, b + BitVec.ofNat 64 n), ?_, ?_, axis_take h1 hn⟩
    · simp [Dom.blockOps, Dom.takeFirst, Dom.ofSize, Dom.front, Dom.beg, Elem.addVec, Dom.mk, TypeSeq.isUnique,
        zipVals, opAssign, Tup.modify, TypeSeq.remove, TypeSeq.removeAcc, TypeSeq.contains, TypeSeq.same]
    · have hs : (b + BitVec.ofNat 64 n).toNat = b.toNat + n := by
        rw [BitVec.toNat_add, BitVec.toNat_ofNat]; omega
      simp only [hs]
      simp only at h1 h2
      omega
  · rintro q ⟨b, e⟩ n ⟨h1, h2⟩ hn
    simp only [length_axis] at hn
    simp only at h1 h2
    have h3 := e.isLt
    have hs : (b + BitVec.ofNat 64 n).toNat = b.toNat + n := by
      rw [BitVec.toNat_add, BitVec.toNat_ofNat]; omega
    refine ⟨(b + BitVec.ofNat 64 n, e), ?_, ?_, axis_drop h1 hn⟩
    · have hsub : sSub (e - b) (BitVec.ofNat 64 n) = .ok (e - b - BitVec.ofNat 64 n) := by
        rw [sSub, Dom.toInt_sub_of_le h1 h2, Support.toInt_ofNat_small (by omega),
          Vect.signedRes_ok (by simp only [Vect.InRange]; omega)]
        congr 1
        apply BitVec.eq_of_toNat_eq
        rw [BitVec.toNat_sub, BitVec.toNat_sub, BitVec.toNat_ofNat, BitVec.toNat_ofInt]
        omega
      have hend : b + BitVec.ofNat 64 n + (e - b - BitVec.ofNat 64 n) = e := by
        apply BitVec.eq_of_toNat_eq
        rw [BitVec.toNat_add, hs, BitVec.toNat_sub, BitVec.toNat_sub, BitVec.toNat_ofNat]
        omega
      simp [Dom.blockOps, Dom.removeFirst, Dom.extents, Dom.fin, Dom.ofSize, Dom.front, Dom.beg, Elem.addVec, Dom.mk,
        TypeSeq.isUnique, zipVals, opAssign, Tup.modify, TypeSeq.remove, TypeSeq.removeAcc, TypeSeq.contains, TypeSeq.same, Vect.sub, Vect.subAssign, Elem.sub, hsub, hend]
    · simp only [hs]; omega

/-! ## Strided domains -/

theorem svalid_iff_get (d : SDom τ) : SValid d ↔ (tags d).Nodup ∧
    ∀ q x, get q d = .ok x → 0 ≤ x.2.1.toInt ∧ 1 ≤ x.2.2.toInt ∧ x.2.1.toInt * x.2.2.toInt < 2 ^ 63 ∧
      (x.1.toNat : Int) + x.2.1.toInt * x.2.2.toInt < 2 ^ 64 := by
  constructor
  · intro h
    refine ⟨h.1, ?_⟩
    rintro q ⟨b, n, s⟩ hx
    exact SDom.svalid_get h hx
  · rintro ⟨h1, h2⟩
    refine ⟨h1, ?_⟩
    intro q hq
    obtain ⟨⟨b, n, s⟩, h⟩ := get_ok_iff_mem_tags.2 hq
    rw [SDom.first_ok h, SDom.count_ok h, SDom.step_ok h]
    exact h2 q (b, n, s) h

/-- Meaning of the merging constructor. -/
theorem SDom.ofDomains_ok {qs : List τ} {ds : List (SDom τ)} (hqs : qs.Nodup)
    (h : ∀ q ∈ qs, OwnedOnce q ds) :
    ∃ r, ofDomains qs ds = .ok r ∧ tags r = qs ∧
      ∀ q ∈ qs, ∀ d ∈ ds, q ∈ tags d → get q r = get q d := by
  obtain ⟨b, b1, b2, b3⟩ := ofTuples_ok (xs := ds.map front)
    (fun q hq => Dom.ownedOnce_map (f := fun p : U64 × I64 × I64 => p.1) (h q hq))
  obtain ⟨n, n1, n2, n3⟩ := ofTuples_ok (xs := ds.map extents)
    (fun q hq => Dom.ownedOnce_map (f := fun p : U64 × I64 × I64 => p.2.1) (h q hq))
  obtain ⟨s, s1, s2, s3⟩ := ofTuples_ok (xs := ds.map strides)
    (fun q hq => Dom.ownedOnce_map (f := fun p : U64 × I64 × I64 => p.2.2) (h q hq))
  obtain ⟨r, r1, r2, r3⟩ := mk_ok (b := b) (n := n) (s := s) (by rw [b2]; exact hqs) (by rw [n2, b2]) (by rw [s2, b2])
  refine ⟨r, by simp [ofDomains, b1, n1, s1, r1], by rw [r2, b2], ?_⟩
  intro q hq d hd hqd
  obtain ⟨⟨x, y, z⟩, hxy⟩ := get_ok_iff_mem_tags.2 hqd
  rw [hxy]
  refine r3 q x y z ?_ ?_ ?_
  · rw [b3 q hq (front d) (List.mem_map_of_mem hd) (by rw [tags_front]; exact hqd), get_front_ok hxy]
  · rw [n3 q hq (extents d) (List.mem_map_of_mem hd) (by rw [tags_extents]; exact hqd), get_extents_ok hxy]
  · rw [s3 q hq (strides d) (List.mem_map_of_mem hd) (by rw [tags_strides]; exact hqd), get_strides_ok hxy]

theorem blockAxes_strided : BlockAxes (SDom.blockOps (τ := τ)) saxes SValid := by
  refine blockAxes_of (fun p : U64 × I64 × I64 => progression p.1 p.2.1 p.2.2)
    (fun x => 0 ≤ x.2.1.toInt ∧ 1 ≤ x.2.2.toInt ∧ x.2.1.toInt * x.2.2.toInt < 2 ^ 63 ∧
      (x.1.toNat : Int) + x.2.1.toInt * x.2.2.toInt < 2 ^ 64) svalid_iff_get ?_ ?_ ?_ ?_ ?_ ?_ ?_
  · rintro ⟨b, n, s⟩ hx; rw [length_progression]; have := n.toInt_lt; simp only at *; omega
  · intro d; rfl
  · intro d hd
    have := (grid_strided hd).extents
    simp only [saxes, List.map_map] at this
    exact this
  · rintro d q ⟨b, n, s⟩ hd hx
    obtain ⟨h1, -⟩ := SDom.svalid_get hd hx
    have hn := n.toInt_lt
    simp only [SDom.blockOps, SDom.extent, select_one (SDom.get_extents_ok hx), length_progression]
    congr 3
    apply BitVec.eq_of_toInt_eq
    rw [Support.toInt_ofNat_small (by omega)]; omega
  · intro qs ds h1 h2 h3; exact SDom.ofDomains_ok h1 h3
  · rintro q ⟨b, n, s⟩ k ⟨h1, h2, h3, h4⟩ hk
    simp only [length_progression] at hk
    simp only at h1 h2 h3 h4
    have hn := n.toInt_lt
    have hkk : (BitVec.ofNat 64 k : I64).toInt = k := Support.toInt_ofNat_small (by omega)
    have hm : (k : Int) * s.toInt ≤ n.toInt * s.toInt := Int.mul_le_mul_of_nonneg_right (by omega) (by omega)
    refine ⟨(b, BitVec.ofNat 64 k, s), ?_, ?_, ?_⟩
    · simp [SDom.blockOps, SDom.takeFirst, SDom.ofSize, SDom.front, SDom.strides, SDom.mk, TypeSeq.isUnique,
        zipVals, TypeSeq.remove, TypeSeq.removeAcc, TypeSeq.contains, TypeSeq.same]
    · simp only [hkk]; omega
    · simp only [progression, hkk, ← List.map_take, List.take_range]
      rw [Nat.min_eq_left hk]; rfl
  · rintro q ⟨b, n, s⟩ k ⟨h1, h2, h3, h4⟩ hk
    simp only [length_progression] at hk
    simp only at h1 h2 h3 h4
    have hn := n.toInt_lt
    have hb := b.isLt
    have hkk : (BitVec.ofNat 64 k : I64).toInt = k := Support.toInt_ofNat_small (by omega)
    have hm : (k : Int) * s.toInt ≤ n.toInt * s.toInt := Int.mul_le_mul_of_nonneg_right (by omega) (by omega)
    have hm0 : 0 ≤ (k : Int) * s.toInt := Int.mul_nonneg (by omega) (by omega)
    have hmd : (n.toInt - k) * s.toInt = n.toInt * s.toInt - k * s.toInt := by rw [Int.sub_mul]
    have hmul : sMul (BitVec.ofNat 64 k) s = .ok (BitVec.ofInt 64 (k * s.toInt)) := by
      rw [sMul, hkk, Vect.signedRes_ok (by simp only [Vect.InRange]; omega)]
    have hsub : sSub n (BitVec.ofNat 64 k) = .ok (BitVec.ofInt 64 (n.toInt - k)) := by
      rw [sSub, hkk, Vect.signedRes_ok (by simp only [Vect.InRange]; omega)]
    have hi : (BitVec.ofInt 64 (n.toInt - k) : I64).toInt = n.toInt - k := by
      rw [BitVec.toInt_ofInt]; exact Int.bmod_eq_of_le (by omega) (by omega)
    have hs : ((b + BitVec.ofInt 64 (k * s.toInt) : U64).toNat : Int) = b.toNat + k * s.toInt := by
      rw [BitVec.toNat_add, BitVec.toNat_ofInt]; omega
    refine ⟨(b + BitVec.ofInt 64 (k * s.toInt), BitVec.ofInt 64 (n.toInt - k), s), ?_, ?_, ?_⟩
    · simp [SDom.blockOps, SDom.removeFirst, SDom.ofSize, SDom.front, SDom.extents, SDom.strides, SDom.mk, TypeSeq.isUnique,
        zipVals, TypeSeq.remove, TypeSeq.removeAcc, TypeSeq.contains, TypeSeq.same, SDom.prod, hmul, Vect.sub, Vect.subAssign, opAssign, Tup.modify, Elem.addVec, hsub]
    · simp only [hi, hs, hmd]; omega
    · refine List.ext_getElem (by simp [progression, hi]) ?_
      intro i g1 g2
      simp only [progression, List.getElem_map, List.getElem_range, List.getElem_drop, hs]
      congr 1
      push_cast
      rw [Int.add_mul]; omega

end DDC
