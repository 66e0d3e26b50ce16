import Verif.Lemmas.DomainOps
import Verif.Props.C08

/-!
# C10  Products, projections and dimension replacement of domains
-/

namespace DDC.Props

open Tup Dom Spec

variable {τ : Type} [DecidableEq τ]

private theorem contains_box {d : Dom τ} (hd : (tags d).Nodup) {e : Elem τ} (hs : SameTags e d) :
    contains d [e] = .ok true ↔ InBox d e := by
  obtain ⟨c, g1, g2⟩ := contains_one hd hs
  rw [g1, ← g2]; simp

/-- The merging constructor compiles exactly when each requested dimension belongs
to exactly one argument (given distinct requested dimensions). -/
theorem C10_product_wf (qs : List τ) (hqs : qs.Nodup) (ds : List (Dom τ))
    (hds : ∀ d ∈ ds, Valid d) :
    (∃ r, ofDomains qs ds = .ok r) ↔
      ∀ q ∈ qs, ∃ l d r, ds = l ++ d :: r ∧ q ∈ tags d ∧ (∀ y ∈ l, q ∉ tags y) ∧ ∀ y ∈ r, q ∉ tags y := by
  constructor
  · rintro ⟨r, hr⟩ q hq
    refine Classical.byContradiction fun h => ?_
    exact ofDomains_ill hq h r hr
  · intro h
    obtain ⟨r, hr, _⟩ := ofDomains_ok hqs (fun d hd => (hds d hd).1) h
    exact ⟨r, hr⟩

/-- A merged domain contains `e` iff each factor contains the projection of `e`. -/
theorem C10_product (qs : List τ) (hqs : qs.Nodup) (ds : List (Dom τ)) (hds : ∀ d ∈ ds, Valid d)
    (hp : (ds.flatMap tags).Perm qs) :
    ∃ r, ofDomains qs ds = .ok r ∧ Valid r ∧ tags r = qs ∧
      ∀ e : Elem τ, (tags e).Perm qs →
        (contains r [e] = .ok true ↔
          ∀ d ∈ ds, ∃ p, Tup.select (tags d) e = .ok p ∧ contains d [p] = .ok true) := by
  obtain ⟨r, h1, h2, h3⟩ := ofDomains_ok hqs (fun d hd => (hds d hd).1) (ownedOnce_of_perm hqs hp)
  have hown : ∀ q ∈ qs, ∃ d ∈ ds, q ∈ tags d := fun q hq =>
    List.mem_flatMap.1 (hp.mem_iff.2 hq)
  have hv : Valid r := by
    refine valid_of_get (by rw [h2]; exact hqs) ?_
    intro q hq
    rw [h2] at hq
    obtain ⟨d, hd, hqd⟩ := hown q hq
    exact ⟨d, hds d hd, hqd, h3 q hq d hd hqd⟩
  refine ⟨r, h1, hv, h2, ?_⟩
  intro e he
  rw [contains_box hv.1 (by rw [SameTags, h2]; exact he)]
  have hproj : ∀ d ∈ ds, ∃ p, Tup.select (tags d) e = .ok p ∧
      (contains d [p] = .ok true ↔ InBox d e) := by
    intro d hd
    obtain ⟨p, p1, p2, p3⟩ := select_ok (qs := tags d) (x := e) (fun q hq =>
      he.mem_iff.2 (hp.mem_iff.1 (List.mem_flatMap.2 ⟨d, hd, hq⟩)))
    refine ⟨p, p1, ?_⟩
    rw [contains_box (hds d hd).1 (by rw [SameTags, p2])]
    exact inBox_congr p3
  constructor
  · intro h d hd
    obtain ⟨p, p1, p2⟩ := hproj d hd
    refine ⟨p, p1, p2.2 ?_⟩
    intro q hq
    have hqq : q ∈ qs := hp.mem_iff.1 (List.mem_flatMap.2 ⟨d, hd, hq⟩)
    have := h q (by rw [h2]; exact hqq)
    rwa [lo_congr (h3 q hqq d hd hq), hi_congr (h3 q hqq d hd hq)] at this
  · intro h q hq
    rw [h2] at hq
    obtain ⟨d, hd, hqd⟩ := hown q hq
    obtain ⟨p, p1, p2⟩ := h d hd
    obtain ⟨p', p1', p2'⟩ := hproj d hd
    rw [p1] at p1'; injection p1' with p1'; subst p1'
    have := p2'.1 p2 q hqd
    rwa [lo_congr (h3 q hq d hd hqd), hi_congr (h3 q hq d hd hqd)]

/-- `select` keeps exactly the bounds of the requested dimensions, in the requested
order. -/
theorem C10_select (qs : List τ) (hqs : qs.Nodup) (d : Dom τ) (hd : Valid d) :
    ((∀ q ∈ qs, q ∈ tags d) →
      ∃ r, Dom.select qs d = .ok r ∧ Valid r ∧ tags r = qs ∧ ∀ q ∈ qs, get q r = get q d) ∧
    ((∃ q ∈ qs, q ∉ tags d) → ∀ r, Dom.select qs d ≠ .ok r) := by
  constructor
  · intro h
    obtain ⟨r, h1, h2, h3⟩ := ofDomains_ok (ds := [d]) hqs (by simpa using hd.1)
      (fun q hq => ownedOnce_singleton (h q hq))
    refine ⟨r, h1, ?_, h2, fun q hq => h3 q hq d (by simp) (h q hq)⟩
    refine valid_of_get (by rw [h2]; exact hqs) ?_
    intro q hq
    rw [h2] at hq
    exact ⟨d, hd, h q hq, h3 q hq d (by simp) (h q hq)⟩
  · rintro ⟨q, hq, hqd⟩
    refine ofDomains_ill hq ?_
    rintro ⟨l, x, r, h1, h2, _⟩
    have : x ∈ [d] := by rw [h1]; simp
    simp only [List.mem_singleton] at this
    subst this
    exact hqd h2

/-- `remove_dims_of` drops exactly the given dimensions and keeps the others, in
their order. -/
theorem C10_remove_dims (d : Dom τ) (hd : Valid d) (ts : List τ) :
    ∃ r, removeDimsOf d ts = .ok r ∧ Valid r ∧
      (∀ q, q ∈ tags r ↔ q ∈ tags d ∧ q ∉ ts) ∧ (tags r).Sublist (tags d) ∧
      ∀ q ∈ tags r, get q r = get q d := by
  have hrem : ∀ q, q ∈ TypeSeq.remove (tags d) ts ↔ q ∈ tags d ∧ q ∉ ts := by
    intro q; rw [TypeSeq.remove_eq]; simp
  have hsub : (TypeSeq.remove (tags d) ts).Sublist (tags d) := by
    rw [TypeSeq.remove_eq]; exact List.filter_sublist
  obtain ⟨r, h1, h2, h3, h4⟩ := (C10_select (TypeSeq.remove (tags d) ts) (hsub.nodup hd.1) d hd).1
    (fun q hq => ((hrem q).1 hq).1)
  refine ⟨r, h1, h2, fun q => by rw [h3]; exact hrem q, by rw [h3]; exact hsub, ?_⟩
  intro q hq
  exact h4 q (h3 ▸ hq)

/-- The product of a projection and of the removed part is the original domain. -/
theorem C10_recompose (d : Dom τ) (hd : Valid d) (qs : List τ) (hqs : qs.Nodup)
    (h : ∀ q ∈ qs, q ∈ tags d) :
    ∃ s r, Dom.select qs d = .ok s ∧ removeDimsOf d qs = .ok r ∧
      ofDomains (tags d) [s, r] = .ok d ∧ ofDomains (tags d) [r, s] = .ok d := by
  obtain ⟨s, s1, s2, s3, s4⟩ := (C10_select qs hqs d hd).1 h
  obtain ⟨r, r1, r2, r3, _, r4⟩ := C10_remove_dims d hd qs
  refine ⟨s, r, s1, r1, ?_, ?_⟩
  all_goals
    have hown : ∀ q ∈ tags d, OwnedOnce q [s, r] ∧ OwnedOnce q [r, s] := by
      intro q hq
      by_cases hqs' : q ∈ qs
      · have a1 : q ∈ tags s := by rw [s3]; exact hqs'
        have a2 : q ∉ tags r := by rw [r3]; simp [hqs']
        exact ⟨ownedOnce_pair_left a1 a2, ownedOnce_pair_right a2 a1⟩
      · have a1 : q ∉ tags s := by rw [s3]; exact hqs'
        have a2 : q ∈ tags r := by rw [r3]; exact ⟨hq, hqs'⟩
        exact ⟨ownedOnce_pair_right a1 a2, ownedOnce_pair_left a2 a1⟩
  · obtain ⟨x, x1, x2, x3⟩ := ofDomains_ok (ds := [s, r]) hd.1 (by simp [s2.1, r2.1])
      (fun q hq => (hown q hq).1)
    rw [x1]; congr 1
    refine ext_get x2 (by rw [x2]; exact hd.1) ?_
    intro q hq
    rw [x2] at hq
    by_cases hqs' : q ∈ qs
    · rw [x3 q hq s (by simp) (by rw [s3]; exact hqs'), s4 q hqs']
    · have : q ∈ tags r := by rw [r3]; exact ⟨hq, hqs'⟩
      rw [x3 q hq r (by simp) this, r4 q this]
  · obtain ⟨x, x1, x2, x3⟩ := ofDomains_ok (ds := [r, s]) hd.1 (by simp [s2.1, r2.1])
      (fun q hq => (hown q hq).2)
    rw [x1]; congr 1
    refine ext_get x2 (by rw [x2]; exact hd.1) ?_
    intro q hq
    rw [x2] at hq
    by_cases hqs' : q ∈ qs
    · rw [x3 q hq s (by simp) (by rw [s3]; exact hqs'), s4 q hqs']
    · have : q ∈ tags r := by rw [r3]; exact ⟨hq, hqs'⟩
      rw [x3 q hq r (by simp) this, r4 q this]

private theorem ofDomains_one {q : τ} {d : Dom τ} (hd : (tags d).Nodup) (hq : q ∈ tags d) :
    ∃ v, get q d = .ok v ∧ ofDomains [q] [d] = .ok [(q, v)] := by
  obtain ⟨r, h1, h2, h3⟩ := ofDomains_ok (qs := [q]) (ds := [d]) (by simp) (by simpa using hd)
    (fun p hp => by
      have : p = q := by simpa using hp
      subst this; exact ownedOnce_singleton hq)
  obtain ⟨v, hv⟩ := get_ok_iff_mem_tags.2 hq
  refine ⟨v, hv, ?_⟩
  rw [h1]; congr 1
  refine ext_get (by rw [h2]; rfl) (by rw [h2]; simp) ?_
  intro p hp
  rw [h2] at hp
  have : p = q := by simpa using hp
  subst this
  rw [h3 p (by simp) d (by simp) hq, hv]; simp

/-- `replace_dim_of<t1, t2>(a, b)`: the dimension `t1` of `a`, at its place in the
order, becomes the dimension `t2` of `b`; every other dimension is unchanged. -/
theorem C10_replace_dim (a b : Dom τ) (ha : Valid a) (hb : Valid b) (t1 t2 : τ)
    (h2 : t2 ∈ tags b) (hnew : t2 ∉ tags a ∨ t2 = t1) :
    ∃ r, replaceDimOf t1 t2 a b = .ok r ∧ Valid r ∧
      tags r = (tags a).map (fun q => if q = t1 then t2 else q) ∧
      (t1 ∈ tags a → get t2 r = get t2 b) ∧ ∀ q ∈ tags a, q ≠ t1 → get q r = get q a := by
  let s : τ → τ := fun q => if q = t1 then t2 else q
  have hrep : TypeSeq.replace (tags a) [t1] [t2] = some ((tags a).map s) := by
    obtain ⟨l, l1, l2, l3⟩ := TypeSeq.replaceAcc_eq (a := tags a) (b := [t1]) (c := [t2]) (r := []) rfl
    rw [TypeSeq.replace, l1]
    simp only [List.nil_append]
    congr 1
    apply List.ext_getElem?
    intro i
    rw [List.getElem?_map]
    cases hx : (tags a)[i]? with
    | none =>
      rw [List.getElem?_eq_none_iff] at hx
      simp only [Option.map_none, List.getElem?_eq_none_iff]; omega
    | some x =>
      rw [l3 i x hx]
      simp only [TypeSeq.replaceSingle, Option.map_some, s]
      split <;> rfl
  have hinj : ∀ p ∈ tags a, ∀ q ∈ tags a, s p = s q → p = q := by
    intro p hp q hq h
    simp only [s] at h
    split at h <;> split at h
    · rename_i e1 e2; rw [e1, e2]
    · rename_i e1 e2
      rcases hnew with hn | hn
      · exact absurd (h ▸ hq) hn
      · rw [← h, hn] at e2; exact absurd rfl e2
    · rename_i e1 e2
      rcases hnew with hn | hn
      · exact absurd (h ▸ hp) hn
      · rw [h, hn] at e1; exact absurd rfl e1
    · exact h
  have hsnd : ((tags a).map s).Nodup := by
    rw [List.nodup_iff_pairwise_ne, List.pairwise_map]
    exact (List.nodup_iff_pairwise_ne.1 ha.1).imp_of_mem (fun hp hq hne h => hne (hinj _ hp _ hq h))
  -- the one-dimensional factors
  let g : τ → (U64 × U64) := fun q =>
    if q = t1 then (match get t2 b with | .ok v => v | _ => (0, 0))
    else (match get q a with | .ok v => v | _ => (0, 0))
  have hm : (tags a).mapM (fun q => do
      let d1 ← ofDomains [q] [a]
      replaceDimOf1d t1 t2 q d1 b) = .ok ((tags a).map (fun q => [(s q, g q)])) := by
    refine mapM_ok (g := fun q => [(s q, g q)]) ?_
    intro q hq
    obtain ⟨v, hv, hv'⟩ := ofDomains_one ha.1 hq
    obtain ⟨w, hw, hw'⟩ := ofDomains_one hb.1 h2
    by_cases e : q = t1
    · simp [replaceDimOf1d, e, hw', s, g, hw]
      subst e; rw [hv']; simp
    · simp [hv', replaceDimOf1d, e, s, g, hv]
  have hperm : (((tags a).map (fun q => ([(s q, g q)] : Dom τ))).flatMap tags) = (tags a).map s := by
    generalize tags a = l
    induction l with
    | nil => rfl
    | cons x l ih => simp [ih]
  obtain ⟨r, r1, r2, r3⟩ := ofDomains_ok (qs := (tags a).map s)
    (ds := (tags a).map (fun q => [(s q, g q)])) hsnd
    (by intro d hd; obtain ⟨q, _, rfl⟩ := List.mem_map.1 hd; simp)
    (ownedOnce_of_perm hsnd (by rw [hperm]))
  have hget : ∀ q ∈ tags a, get (s q) r = .ok (g q) := by
    intro q hq
    rw [r3 (s q) (List.mem_map_of_mem hq) [(s q, g q)] (List.mem_map_of_mem (f := fun q => ([(s q, g q)] : Dom τ)) hq) (by simp)]
    simp
  have hb2 : t1 ∈ tags a → get t2 r = get t2 b := by
    intro h1
    have := hget t1 h1
    simp only [s, g, if_true] at this
    obtain ⟨w, hw⟩ := get_ok_iff_mem_tags.2 h2
    rw [this, hw]
  have ha2 : ∀ q ∈ tags a, q ≠ t1 → get q r = get q a := by
    intro q hq hne
    have := hget q hq
    simp only [s, g, hne, if_false] at this
    obtain ⟨w, hw⟩ := get_ok_iff_mem_tags.2 hq
    rw [this, hw]
  refine ⟨r, ?_, ?_, r2, hb2, ha2⟩
  · simp only [replaceDimOf, hrep, Res.ofOptionIll_some, Res.ok_bind]
    rw [hm]
    simp only [Res.ok_bind]
    exact r1
  · refine valid_of_get (by rw [r2]; exact hsnd) ?_
    intro p hp
    rw [r2] at hp
    obtain ⟨q, hq, rfl⟩ := List.mem_map.1 hp
    by_cases e : q = t1
    · subst e
      refine ⟨b, hb, ?_, ?_⟩
      · simp [s, h2]
      · simp only [s, if_true]; exact hb2 hq
    · refine ⟨a, ha, ?_, ?_⟩
      · simp [s, e, hq]
      · simp only [s, e, if_false]; exact ha2 q hq e

/-- The free functions `extents<Qs...>`, `front<Qs...>`, `back<Qs...>` return the
extent, first and last index of each requested dimension. -/
theorem C10_free_functions (qs : List τ) (hqs : qs.Nodup) (d : Dom τ) (hd : Valid d)
    (h : ∀ q ∈ qs, q ∈ tags d) :
    ∃ n f b, extentsOf qs d = .ok n ∧ frontOf qs d = .ok f ∧ backOf qs d = .ok b ∧
      tags n = qs ∧ tags f = qs ∧ tags b = qs ∧
      ∀ q ∈ qs, disp q n = len q d ∧ idx q f = lo q d ∧ (0 < hi q d → idx q b + 1 = hi q d) := by
  let gd : τ → (U64 × U64) := fun q => match get q d with | .ok v => v | _ => (0, 0)
  have hgd : ∀ q ∈ qs, get q d = .ok (gd q) ∧ ofDomains [q] [d] = .ok [(q, gd q)] := by
    intro q hq
    obtain ⟨v, hv, hv'⟩ := ofDomains_one hd.1 (h q hq)
    simp only [gd, hv]; exact ⟨trivial, hv'⟩
  have hn : extentsOf qs d = .ok (qs.map (fun q => (q, (gd q).2 - (gd q).1))) := by
    clear h hqs
    induction qs with
    | nil => rfl
    | cons q qs ih =>
      have := ih (fun p hp => hgd p (by simp [hp]))
      have e := (hgd q (by simp)).2
      have hs : size ([(q, gd q)] : Dom τ) = .ok ((gd q).2 - (gd q).1) := by
        have : get q ([(q, gd q)] : Dom τ) = .ok ((gd q).1, (gd q).2) := by simp
        simp [size, sizeAux, extent_ok this]
      simp [extentsOf, e, hs, this]
  have hf : frontOf qs d = .ok (qs.map (fun q => (q, (gd q).1))) := by
    have : qs.mapM (fun q => do
        let d1 ← ofDomains [q] [d]
        pure (front d1)) = .ok (qs.map (fun q => [(q, (gd q).1)])) := by
      refine mapM_ok (g := fun q => ([(q, (gd q).1)] : Elem τ)) ?_
      intro q hq
      rw [(hgd q hq).2]; rfl
    simp only [frontOf]
    rw [this]
    simp only [Res.ok_bind]
    exact ofTuples_singletons hqs (fun _ h => h)
  have hb : backOf qs d = .ok (qs.map (fun q => (q, (gd q).2 - 1))) := by
    have : qs.mapM (fun q => do
        let d1 ← ofDomains [q] [d]
        back d1) = .ok (qs.map (fun q => [(q, (gd q).2 - 1)])) := by
      refine mapM_ok (g := fun q => ([(q, (gd q).2 - 1)] : Elem τ)) ?_
      intro q hq
      rw [(hgd q hq).2]
      simp only [Res.ok_bind]
      obtain ⟨e, e1, e2, e3⟩ := back_ok ([(q, gd q)] : Dom τ) (by simp)
      rw [e1]; congr 1
      have := e3 q (gd q).1 (gd q).2 (by simp)
      refine ext_get (by rw [e2]; rfl) (by rw [e2]; simp) ?_
      intro p hp
      rw [e2] at hp
      have hpq : p = q := by simpa using hp
      subst hpq
      rw [this]; simp
    simp only [backOf]
    rw [this]
    simp only [Res.ok_bind]
    exact ofTuples_singletons hqs (fun _ h => h)
  refine ⟨_, _, _, hn, hf, hb, by simp, by simp, by simp, ?_⟩
  intro q hq
  have hg := (hgd q hq).1
  have hv := valid_get hd (b := (gd q).1) (e := (gd q).2) hg
  refine ⟨?_, ?_, ?_⟩
  · rw [disp_ok (get_map_tags hq), len, lo_ok (b := (gd q).1) (e := (gd q).2) hg, hi_ok (b := (gd q).1) (e := (gd q).2) hg, hv.2.2]
    omega
  · rw [idx_ok (get_map_tags hq), lo_ok (b := (gd q).1) (e := (gd q).2) hg]
  · intro hpos
    rw [hi_ok (b := (gd q).1) (e := (gd q).2) hg] at hpos ⊢
    rw [idx_ok (get_map_tags hq), BitVec.toNat_sub]
    have e1 : (1 : U64).toNat = 1 := rfl
    have := (gd q).2.isLt
    rw [e1]; omega

/-! Non-vacuity. -/
example : ofDomains ['x', 'y'] ([[('y', (1, 4))], [('x', (5, 9))]] : List (Dom Char))
      = .ok [('x', (5, 9)), ('y', (1, 4))] ∧
    removeDimsOf ([('x', (5, 9)), ('y', (1, 4))] : Dom Char) ['x'] = .ok [('y', (1, 4))] ∧
    replaceDimOf 'x' 'z' ([('x', (5, 9)), ('y', (1, 4))] : Dom Char) [('z', (0, 2))]
      = .ok [('z', (0, 2)), ('y', (1, 4))] ∧
    ofDomains ['x'] ([[('x', (1, 4))], [('x', (5, 9))]] : List (Dom Char)) = .ill := by decide

end DDC.Props
