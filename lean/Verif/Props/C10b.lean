import Mathlib.Data.List.Nodup
import Verif.Lemmas.BlockAxes
import Verif.Props.C13
import Verif.Props.C14

/-!
# C10 (second part)  Products, projections and dimension replacement of strided and
sparse domains

The two classes offer the same free functions as `DiscreteDomain`; the laws are
stated once, for any kind of domain stored per dimension.
-/

namespace DDC.Props

open Tup Spec

variable {τ : Type} [DecidableEq τ] {V : Type}

/-- The dimension-wise operations of a kind of domain: the merging constructor,
`select`, `remove_dims_of` and `replace_dim_of`. -/
structure DimOps (τ V : Type) where
  merge : List τ → List (Tup τ V) → Res (Tup τ V)
  select : List τ → Tup τ V → Res (Tup τ V)
  remove : Tup τ V → List τ → Res (Tup τ V)
  replace : τ → τ → Tup τ V → Tup τ V → Res (Tup τ V)

/-- What the operations must do, in terms of the data of each dimension. -/
structure DimLaws (O : DimOps τ V) : Prop where
  /-- the merge compiles iff the dimensions are distinct and each belongs to exactly one argument -/
  merge_wf : ∀ qs ds, (∃ r, O.merge qs ds = .ok r) ↔ qs.Nodup ∧ ∀ q ∈ qs, ∃ l d r,
    ds = l ++ d :: r ∧ q ∈ tags d ∧ (∀ y ∈ l, q ∉ tags y) ∧ ∀ y ∈ r, q ∉ tags y
  /-- each dimension of the merge comes from the argument owning it -/
  merge_data : ∀ qs ds r, O.merge qs ds = .ok r →
    tags r = qs ∧ ∀ q ∈ qs, ∀ d ∈ ds, q ∈ tags d → get q r = get q d
  /-- `select` compiles iff the requested dimensions are distinct dimensions of the argument -/
  select_wf : ∀ qs d, (∃ r, O.select qs d = .ok r) ↔ qs.Nodup ∧ ∀ q ∈ qs, q ∈ tags d
  select_data : ∀ qs d r, O.select qs d = .ok r → tags r = qs ∧ ∀ q ∈ qs, get q r = get q d
  /-- `remove_dims_of` always compiles and keeps the other dimensions in their order -/
  remove_data : ∀ d ts, (tags d).Nodup → ∃ r, O.remove d ts = .ok r ∧
    (∀ q, q ∈ tags r ↔ q ∈ tags d ∧ q ∉ ts) ∧ (tags r).Sublist (tags d) ∧
    ∀ q ∈ tags r, get q r = get q d
  /-- a projection and the complementary part recompose the domain -/
  recompose : ∀ d qs, (tags d).Nodup → qs.Nodup → (∀ q ∈ qs, q ∈ tags d) →
    ∃ s r, O.select qs d = .ok s ∧ O.remove d qs = .ok r ∧
      O.merge (tags d) [s, r] = .ok d ∧ O.merge (tags d) [r, s] = .ok d
  /-- `replace_dim_of<t1, t2>(a, b)` puts the dimension `t2` of `b` at the place of `t1` -/
  replace_data : ∀ t1 t2 a b, (tags a).Nodup → t2 ∈ tags b → (t2 ∉ tags a ∨ t2 = t1) →
    ∃ r, O.replace t1 t2 a b = .ok r ∧
      tags r = (tags a).map (fun q => if q = t1 then t2 else q) ∧
      (t1 ∈ tags a → get t2 r = get t2 b) ∧ ∀ q ∈ tags a, q ≠ t1 → get q r = get q a
  /-- `replace_dim_of` by a dimension that is already there does not compile -/
  replace_clash : ∀ t1 t2 a b, t1 ∈ tags a → t2 ∈ tags a → t2 ≠ t1 → ∀ r, O.replace t1 t2 a b ≠ .ok r

private theorem replace_eq (l : List τ) (t1 t2 : τ) :
    TypeSeq.replace l [t1] [t2] = some (l.map (fun q => if q = t1 then t2 else q)) := by
  obtain ⟨l', l1, l2, l3⟩ := TypeSeq.replaceAcc_eq (a := l) (b := [t1]) (c := [t2]) (r := []) rfl
  rw [TypeSeq.replace, l1]
  simp only [List.nil_append]
  congr 1
  apply List.ext_getElem?
  intro i
  rw [List.getElem?_map]
  cases hx : l[i]? with
  | none =>
    rw [List.getElem?_eq_none_iff] at hx
    simp only [Option.map_none, List.getElem?_eq_none_iff]; omega
  | some x =>
    rw [l3 i x hx]
    simp only [TypeSeq.replaceSingle, Option.map_some]
    split <;> rfl

private theorem single_of {merge : List τ → List (Tup τ V) → Res (Tup τ V)}
    (hok : ∀ qs ds, qs.Nodup → (∀ q ∈ qs, OwnedOnce q ds) → ∃ r, merge qs ds = .ok r ∧ tags r = qs ∧
      ∀ q ∈ qs, ∀ d ∈ ds, q ∈ tags d → get q r = get q d)
    {q : τ} {d : Tup τ V} {v : V} (hv : get q d = .ok v) : merge [q] [d] = .ok [(q, v)] := by
  have hq := mem_tags_of_get hv
  obtain ⟨r, h1, h2, h3⟩ := hok [q] [d] (by simp) (by
    intro p hp
    rw [List.mem_singleton.1 hp]; exact Dom.ownedOnce_singleton hq)
  rw [h1]; congr 1
  refine ext_get (by rw [h2]; rfl) (by rw [h2]; simp) ?_
  intro p hp
  rw [h2] at hp
  have : p = q := by simpa using hp
  subst this
  rw [h3 p (by simp) d (by simp) hq, hv]; simp

private theorem dimLaws_of (merge : List τ → List (Tup τ V) → Res (Tup τ V))
    (hok : ∀ qs ds, qs.Nodup → (∀ q ∈ qs, OwnedOnce q ds) → ∃ r, merge qs ds = .ok r ∧ tags r = qs ∧
      ∀ q ∈ qs, ∀ d ∈ ds, q ∈ tags d → get q r = get q d)
    (hinv : ∀ qs ds r, merge qs ds = .ok r → qs.Nodup ∧ ∀ q ∈ qs, OwnedOnce q ds)
    (rep1 : τ → τ → τ → Tup τ V → Tup τ V → Res (Tup τ V))
    (hrep1 : ∀ t1 t2 a da db, rep1 t1 t2 a da db = if a = t1 then merge [t2] [db] else .ok da) :
    DimLaws ⟨merge, fun qs d => merge qs [d], fun d ts => merge (TypeSeq.remove (tags d) ts) [d],
      fun t1 t2 da db => do
        let ts ← Res.ofOptionIll (TypeSeq.replace (tags da) [t1] [t2])
        let l ← (tags da).mapM (fun a => do
          let d1 ← merge [a] [da]
          rep1 t1 t2 a d1 db)
        merge ts l⟩ := by
  have hdata : ∀ qs ds r, merge qs ds = .ok r →
      tags r = qs ∧ ∀ q ∈ qs, ∀ d ∈ ds, q ∈ tags d → get q r = get q d := by
    intro qs ds r h
    obtain ⟨h1, h2⟩ := hinv qs ds r h
    obtain ⟨r', e1, e2⟩ := hok qs ds h1 h2
    rw [e1] at h; rw [← Res.ok.inj h]; exact e2
  have hown1 : ∀ q (d : Tup τ V), OwnedOnce q [d] ↔ q ∈ tags d := by
    intro q d
    constructor
    · rintro ⟨l, x, r, h1, h2, _⟩
      have : x ∈ [d] := by rw [h1]; simp
      rw [List.mem_singleton] at this
      rw [← this]; exact h2
    · exact Dom.ownedOnce_singleton
  have hrem : ∀ (d : Tup τ V) ts q, q ∈ TypeSeq.remove (tags d) ts ↔ q ∈ tags d ∧ q ∉ ts := by
    intro d ts q; rw [TypeSeq.remove_eq]; simp
  have hsub : ∀ (d : Tup τ V) ts, (TypeSeq.remove (tags d) ts).Sublist (tags d) := by
    intro d ts; rw [TypeSeq.remove_eq]; exact List.filter_sublist
  have hremove : ∀ d ts, (tags d).Nodup → ∃ r, merge (TypeSeq.remove (tags d) ts) [d] = .ok r ∧
      (∀ q, q ∈ tags r ↔ q ∈ tags d ∧ q ∉ ts) ∧ (tags r).Sublist (tags d) ∧
      ∀ q ∈ tags r, get q r = get q d := by
    intro d ts hd
    obtain ⟨r, r1, r2, r3⟩ := hok (TypeSeq.remove (tags d) ts) [d] ((hsub d ts).nodup hd)
      (fun q hq => (hown1 q d).2 ((hrem d ts q).1 hq).1)
    refine ⟨r, r1, fun q => by rw [r2]; exact hrem d ts q, by rw [r2]; exact hsub d ts, ?_⟩
    intro q hq
    rw [r2] at hq
    exact r3 q hq d (by simp) ((hrem d ts q).1 hq).1
  refine ⟨?_, hdata, ?_, ?_, hremove, ?_, ?_, ?_⟩
  · intro qs ds
    constructor
    · rintro ⟨r, hr⟩; exact hinv qs ds r hr
    · rintro ⟨h1, h2⟩
      obtain ⟨r, hr, _⟩ := hok qs ds h1 h2
      exact ⟨r, hr⟩
  · intro qs d
    constructor
    · rintro ⟨r, hr⟩
      obtain ⟨h1, h2⟩ := hinv qs [d] r hr
      exact ⟨h1, fun q hq => (hown1 q d).1 (h2 q hq)⟩
    · rintro ⟨h1, h2⟩
      obtain ⟨r, hr, _⟩ := hok qs [d] h1 (fun q hq => (hown1 q d).2 (h2 q hq))
      exact ⟨r, hr⟩
  · intro qs d r hr
    obtain ⟨h1, h2⟩ := hdata qs [d] r hr
    refine ⟨h1, fun q hq => h2 q hq d (by simp) ?_⟩
    exact (hown1 q d).1 ((hinv qs [d] r hr).2 q hq)
  · intro d qs hd hqs h
    obtain ⟨s, s1, s3, s4⟩ := hok qs [d] hqs (fun q hq => (hown1 q d).2 (h q hq))
    obtain ⟨r, r1, r3, _, r4⟩ := hremove d qs hd
    refine ⟨s, r, s1, r1, ?_, ?_⟩
    all_goals
      have hown : ∀ q ∈ tags d, OwnedOnce q [s, r] ∧ OwnedOnce q [r, s] := by
        intro q hq
        by_cases hqs' : q ∈ qs
        · have a1 : q ∈ tags s := by rw [s3]; exact hqs'
          have a2 : q ∉ tags r := by rw [r3]; simp [hqs']
          exact ⟨Dom.ownedOnce_pair_left a1 a2, Dom.ownedOnce_pair_right a2 a1⟩
        · have a1 : q ∉ tags s := by rw [s3]; exact hqs'
          have a2 : q ∈ tags r := by rw [r3]; exact ⟨hq, hqs'⟩
          exact ⟨Dom.ownedOnce_pair_right a1 a2, Dom.ownedOnce_pair_left a2 a1⟩
    · obtain ⟨x, x1, x2, x3⟩ := hok (tags d) [s, r] hd (fun q hq => (hown q hq).1)
      dsimp only
      rw [x1]; congr 1
      refine ext_get x2 (by rw [x2]; exact hd) ?_
      intro q hq
      rw [x2] at hq
      by_cases hqs' : q ∈ qs
      · rw [x3 q hq s (by simp) (by rw [s3]; exact hqs'), s4 q hqs' d (by simp) hq]
      · have : q ∈ tags r := by rw [r3]; exact ⟨hq, hqs'⟩
        rw [x3 q hq r (by simp) this, r4 q this]
    · obtain ⟨x, x1, x2, x3⟩ := hok (tags d) [r, s] hd (fun q hq => (hown q hq).2)
      dsimp only
      rw [x1]; congr 1
      refine ext_get x2 (by rw [x2]; exact hd) ?_
      intro q hq
      rw [x2] at hq
      by_cases hqs' : q ∈ qs
      · rw [x3 q hq s (by simp) (by rw [s3]; exact hqs'), s4 q hqs' d (by simp) hq]
      · have : q ∈ tags r := by rw [r3]; exact ⟨hq, hqs'⟩
        rw [x3 q hq r (by simp) this, r4 q this]
  · intro t1 t2 a b ha h2 hnew
    let s : τ → τ := fun q => if q = t1 then t2 else q
    have hinj : ∀ p ∈ tags a, ∀ q ∈ tags a, s p = s q → p = q := by
      intro p hp q hq h
      simp only [s] at h
      split at h <;> split at h
      · rename_i e1 e2; rw [e1, e2]
      · rename_i e1 e2
        rcases hnew with hn | hn
        · exact absurd (h ▸ hq) hn
        · rw [← h, hn] at e2; exact absurd rfl e2
      · rename_i e1 e2
        rcases hnew with hn | hn
        · exact absurd (h ▸ hp) hn
        · rw [h, hn] at e1; exact absurd rfl e1
      · exact h
    have hsnd : ((tags a).map s).Nodup := by
      rw [List.nodup_iff_pairwise_ne, List.pairwise_map]
      exact (List.nodup_iff_pairwise_ne.1 ha).imp_of_mem (fun hp hq hne h => hne (hinj _ hp _ hq h))
    obtain ⟨w, hw⟩ := get_ok_iff_mem_tags.2 h2
    let g : τ → V := fun q => if q = t1 then w else (match get q a with | .ok v => v | _ => w)
    have hm : (tags a).mapM (fun q => do
        let d1 ← merge [q] [a]
        rep1 t1 t2 q d1 b) = .ok ((tags a).map (fun q => [(s q, g q)])) := by
      refine mapM_ok (g := fun q => [(s q, g q)]) ?_
      intro q hq
      obtain ⟨v, hv⟩ := get_ok_iff_mem_tags.2 hq
      rw [single_of hok hv]
      simp only [Res.ok_bind, hrep1]
      by_cases e : q = t1
      · simp only [e, if_true, single_of hok hw, s, g]
      · simp only [e, if_false, s, g, hv]
    have hperm : (((tags a).map (fun q => ([(s q, g q)] : Tup τ V))).flatMap tags) = (tags a).map s := by
      generalize tags a = l
      induction l with
      | nil => rfl
      | cons x l ih => simp [ih]
    obtain ⟨r, r1, r2, r3⟩ := hok ((tags a).map s) ((tags a).map (fun q => [(s q, g q)])) hsnd
      (Dom.ownedOnce_of_perm hsnd (by rw [hperm]))
    have hget : ∀ q ∈ tags a, get (s q) r = .ok (g q) := by
      intro q hq
      rw [r3 (s q) (List.mem_map_of_mem hq) [(s q, g q)]
        (List.mem_map_of_mem (f := fun q => ([(s q, g q)] : Tup τ V)) hq) (by simp)]
      simp
    refine ⟨r, ?_, r2, ?_, ?_⟩
    · dsimp only
      rw [replace_eq]
      simp only [Res.ofOptionIll_some, Res.ok_bind]
      rw [hm]
      exact r1
    · intro h1
      have := hget t1 h1
      simp only [s, g, if_true] at this
      rw [this, hw]
    · intro q hq hne
      have := hget q hq
      simp only [s, g, hne, if_false] at this
      obtain ⟨v, hv⟩ := get_ok_iff_mem_tags.2 hq
      rw [this, hv]
  · intro t1 t2 a b h1 h2 hne r hr
    dsimp only at hr
    rw [replace_eq] at hr
    simp only [Res.ofOptionIll_some, Res.ok_bind] at hr
    obtain ⟨l, _, hl⟩ := Res.bind_eq_ok.1 hr
    have hnd := (hinv _ _ _ hl).1
    have := List.inj_on_of_nodup_map hnd h1 h2 (by simp)
    exact hne this.symm

private theorem sdom_inv (qs : List τ) (ds : List (SDom τ)) (r : SDom τ)
    (hr : SDom.ofDomains qs ds = .ok r) : qs.Nodup ∧ ∀ q ∈ qs, OwnedOnce q ds := by
  simp only [SDom.ofDomains, Res.bind_eq_ok] at hr
  obtain ⟨b, hb, n, _, s, _, hmk⟩ := hr
  have hown := ofTuples_inv hb
  constructor
  · have ht : tags b = qs := by
      have : ∀ q ∈ qs, OwnedOnce q (ds.map SDom.front) := hown
      obtain ⟨b', b1, b2, _⟩ := ofTuples_ok this
      rw [b1] at hb; rw [← Res.ok.inj hb]; exact b2
    simp only [SDom.mk, ht] at hmk
    rw [← TypeSeq.isUnique_iff]
    cases hu : TypeSeq.isUnique qs with
    | true => rfl
    | false => rw [hu] at hmk; simp [Res.guardIll] at hmk
  · intro q hq
    obtain ⟨l, x, rr, h1, h2, h3, h4⟩ := hown q hq
    obtain ⟨l', r', rfl, rfl, h5⟩ := List.map_eq_append_iff.1 h1
    obtain ⟨x', rr', rfl, rfl, rfl⟩ := List.map_eq_cons_iff.1 h5
    have htf : ∀ d : SDom τ, tags (SDom.front d) = tags d := fun d => by simp [SDom.front]
    refine ⟨l', x', rr', rfl, by rwa [htf] at h2, ?_, ?_⟩
    · intro y hy
      have := h3 (SDom.front y) (List.mem_map_of_mem hy)
      rwa [htf] at this
    · intro y hy
      have := h4 (SDom.front y) (List.mem_map_of_mem hy)
      rwa [htf] at this

/-- Products, projections and replacement of dimensions for strided domains. -/
theorem C10_strided : DimLaws (τ := τ)
    ⟨SDom.ofDomains, SDom.select, SDom.removeDimsOf, SDom.replaceDimOf⟩ :=
  dimLaws_of SDom.ofDomains (fun _ _ h1 h2 => SDom.ofDomains_ok h1 h2) sdom_inv
    SDom.replaceDimOf1d (fun _ _ _ _ _ => rfl)

private theorem spdom_ok {qs : List τ} {ds : List (SpDom τ)} (h1 : qs.Nodup)
    (h2 : ∀ q ∈ qs, OwnedOnce q ds) : ∃ r, SpDom.ofDomains qs ds = .ok r ∧ tags r = qs ∧
      ∀ q ∈ qs, ∀ d ∈ ds, q ∈ tags d → get q r = get q d := by
  obtain ⟨r, r1, r2, r3⟩ := ofTuples_ok h2
  refine ⟨r, ?_, r2, r3⟩
  simp [SpDom.ofDomains, (TypeSeq.isUnique_iff qs).2 h1, Res.guardIll, r1]

private theorem spdom_inv (qs : List τ) (ds : List (SpDom τ)) (r : SpDom τ)
    (hr : SpDom.ofDomains qs ds = .ok r) : qs.Nodup ∧ ∀ q ∈ qs, OwnedOnce q ds := by
  simp only [SpDom.ofDomains, Res.bind_eq_ok] at hr
  obtain ⟨_, hu, ht⟩ := hr
  refine ⟨?_, ofTuples_inv ht⟩
  rw [← TypeSeq.isUnique_iff]
  cases h : TypeSeq.isUnique qs with
  | true => rfl
  | false => rw [h] at hu; simp [Res.guardIll] at hu

/-- Products, projections and replacement of dimensions for sparse domains. -/
theorem C10_sparse : DimLaws (τ := τ)
    ⟨SpDom.ofDomains, SpDom.select, SpDom.removeDimsOf, SpDom.replaceDimOf⟩ :=
  dimLaws_of SpDom.ofDomains (fun _ _ h1 h2 => spdom_ok h1 h2) spdom_inv
    SpDom.replaceDimOf1d (fun _ _ _ _ _ => rfl)

/-- A merged sparse domain contains `e` iff each factor contains the projection of `e`. -/
theorem C10_sparse_product (qs : List τ) (hqs : qs.Nodup) (ds : List (SpDom τ))
    (hds : ∀ d ∈ ds, SpValid d) (hp : (ds.flatMap tags).Perm qs) :
    ∃ r, SpDom.ofDomains qs ds = .ok r ∧ SpValid r ∧
      ∀ e : Elem τ, (tags e).Perm qs → (SpDom.contains r [e] = .ok true ↔
        ∀ d ∈ ds, ∃ p, Tup.select (tags d) e = .ok p ∧ SpDom.contains d [p] = .ok true) := by
  obtain ⟨r, h1, h2, h3⟩ := spdom_ok hqs (Dom.ownedOnce_of_perm hqs hp)
  have hown : ∀ q ∈ qs, ∃ d ∈ ds, q ∈ tags d := fun q hq =>
    List.mem_flatMap.1 (hp.mem_iff.2 hq)
  have hv : SpValid r := by
    refine ⟨by rw [h2]; exact hqs, ?_⟩
    intro q l hl
    have hq : q ∈ qs := h2 ▸ mem_tags_of_get hl
    obtain ⟨d, hd, hqd⟩ := hown q hq
    exact (hds d hd).2 q l (by rw [← h3 q hq d hd hqd]; exact hl)
  refine ⟨r, h1, hv, ?_⟩
  intro e he
  have hbox : ∀ d, SpValid d → ∀ p : Elem τ, (tags p).Perm (tags d) →
      (SpDom.contains d [p] = .ok true ↔
        ∀ q x, get q p = .ok x → ∃ l, get q d = .ok l ∧ x ∈ l) := by
    intro d hd p hpd
    obtain ⟨c, c1, c2⟩ := C14_contains d hd [p] (by simpa using hpd)
    rw [c1]
    simp only [List.mem_singleton, forall_eq] at c2
    rw [← c2]; simp
  have hproj : ∀ d ∈ ds, ∃ p, Tup.select (tags d) e = .ok p ∧ tags p = tags d ∧
      ∀ q ∈ tags d, get q p = get q e := by
    intro d hd
    obtain ⟨p, p1, p2, p3⟩ := select_ok (qs := tags d) (x := e) (fun q hq =>
      he.mem_iff.2 (hp.mem_iff.1 (List.mem_flatMap.2 ⟨d, hd, hq⟩)))
    exact ⟨p, p1, p2, p3⟩
  rw [hbox r hv e (by rw [h2]; exact he)]
  constructor
  · intro h d hd
    obtain ⟨p, p1, p2, p3⟩ := hproj d hd
    refine ⟨p, p1, (hbox d (hds d hd) p (by rw [p2])).2 ?_⟩
    intro q x hx
    have hq : q ∈ tags d := p2 ▸ mem_tags_of_get hx
    have hqq : q ∈ qs := hp.mem_iff.1 (List.mem_flatMap.2 ⟨d, hd, hq⟩)
    obtain ⟨l, l1, l2⟩ := h q x (by rw [← p3 q hq]; exact hx)
    exact ⟨l, by rw [← h3 q hqq d hd hq]; exact l1, l2⟩
  · intro h q x hx
    have hqq : q ∈ qs := he.mem_iff.1 (mem_tags_of_get hx)
    obtain ⟨d, hd, hqd⟩ := hown q hqq
    obtain ⟨p, p1, p2⟩ := h d hd
    obtain ⟨p', p1', p2', p3'⟩ := hproj d hd
    rw [p1] at p1'
    have := Res.ok.inj p1'
    subst this
    obtain ⟨l, l1, l2⟩ := (hbox d (hds d hd) p (by rw [p2'])).1 p2 q x (by rw [p3' q hqd]; exact hx)
    exact ⟨l, by rw [h3 q hqq d hd hqd]; exact l1, l2⟩

/-- `contains` of a strided domain answers yes iff it does so along each dimension. -/
theorem strided_contains_iff {d : SDom τ} (hnd : (tags d).Nodup) {e : Elem τ} (hp : (tags e).Perm (tags d)) :
    SDom.contains d [e] = .ok true ↔ ∀ q ∈ tags d, ∃ x b n s, get q e = .ok x ∧ get q d = .ok (b, n, s) ∧
      SDom.contains1d x b n s = .ok true := by
  obtain ⟨r, h1, h2, h3⟩ := select_ok (qs := tags d) (x := e) (fun q hq => hp.mem_iff.2 hq)
  have h1' : ofTuples (tags d) [e] = .ok r := h1
  have hl : d.length = ([e].map List.length).sum := by
    rw [← length_tags d]; exact Dom.sum_length_of_perm (by simpa using hp)
  have key : SDom.contains d [e] = SDom.containsLoop (vals r) (vals d) := by
    simp [SDom.contains, hl, h1']
  rw [key]
  have hcong : (∀ q ∈ tags d, ∃ x b n s, get q e = .ok x ∧ get q d = .ok (b, n, s) ∧
      SDom.contains1d x b n s = .ok true) ↔ ∀ q ∈ tags d, ∃ x b n s, get q r = .ok x ∧
      get q d = .ok (b, n, s) ∧ SDom.contains1d x b n s = .ok true := by
    refine forall_congr' fun q => forall_congr' fun hq => ?_
    rw [h3 q hq]
  rw [hcong]
  clear key hcong h1 h1' h3 hl hp
  induction d generalizing r with
  | nil => cases r with
    | nil => simp [SDom.containsLoop, vals]
    | cons p r => simp at h2
  | cons p d ih =>
    cases r with
    | nil => simp at h2
    | cons p' r =>
      obtain ⟨t, b, n, s⟩ := p
      obtain ⟨t', x⟩ := p'
      simp only [tags_cons, List.cons.injEq] at h2
      obtain ⟨rfl, h2⟩ := h2
      simp only [tags_cons, List.nodup_cons] at hnd
      have hne : ∀ q ∈ tags d, q ≠ t' := by rintro q hq rfl; exact hnd.1 hq
      have e1 : (∀ q ∈ tags d, ∃ x' b' n' s', get q ((t', x) :: r) = .ok x' ∧
            get q ((t', b, n, s) :: d) = .ok (b', n', s') ∧ SDom.contains1d x' b' n' s' = .ok true) ↔
          ∀ q ∈ tags d, ∃ x' b' n' s', get q r = .ok x' ∧ get q d = .ok (b', n', s') ∧
            SDom.contains1d x' b' n' s' = .ok true := by
        refine forall_congr' fun q => forall_congr' fun hq => ?_
        simp only [get_cons, hne q hq, if_false]
      have e2 : (∃ x' b' n' s', get t' ((t', x) :: r) = .ok x' ∧
            get t' ((t', b, n, s) :: d) = .ok (b', n', s') ∧ SDom.contains1d x' b' n' s' = .ok true) ↔
          SDom.contains1d x b n s = .ok true := by
        constructor
        · rintro ⟨x', b', n', s', g1, g2, g3⟩
          simp only [get_cons, if_true] at g1 g2
          cases g1; cases g2; exact g3
        · intro h; exact ⟨x, b, n, s, by simp, by simp, h⟩
      simp only [tags_cons, List.mem_cons, forall_eq_or_imp]
      have ih' := ih hnd.2 r h2
      refine Iff.trans ?_ (and_congr e2 (e1.trans ih'.symm)).symm
      simp only [vals, List.map_cons, SDom.containsLoop]
      cases hc : SDom.contains1d x b n s with
      | ok c => cases c <;> simp
      | _ => simp

/-- A merged strided domain contains `e` iff each factor contains the projection of
`e`, for all factors, whatever their strides and extents. -/
theorem C10_strided_product (qs : List τ) (hqs : qs.Nodup) (ds : List (SDom τ))
    (hp : (ds.flatMap tags).Perm qs) :
    ∃ r, SDom.ofDomains qs ds = .ok r ∧ tags r = qs ∧ ((∀ d ∈ ds, SValid d) → SValid r) ∧
      ∀ e : Elem τ, (tags e).Perm qs → (SDom.contains r [e] = .ok true ↔
        ∀ d ∈ ds, ∃ p, Tup.select (tags d) e = .ok p ∧ SDom.contains d [p] = .ok true) := by
  obtain ⟨r, h1, h2, h3⟩ := SDom.ofDomains_ok hqs (Dom.ownedOnce_of_perm hqs hp)
  have hown : ∀ q ∈ qs, ∃ d ∈ ds, q ∈ tags d := fun q hq =>
    List.mem_flatMap.1 (hp.mem_iff.2 hq)
  have hnd : ∀ d ∈ ds, (tags d).Nodup := fun d hd =>
    (List.nodup_flatMap.1 (hp.nodup_iff.2 hqs)).1 d hd
  refine ⟨r, h1, h2, ?_, ?_⟩
  · intro hds
    refine ⟨by rw [h2]; exact hqs, ?_⟩
    intro q hq
    rw [h2] at hq
    obtain ⟨d, hd, hqd⟩ := hown q hq
    have := (hds d hd).2 q hqd
    simp only [first, count, step, h3 q hq d hd hqd]
    simpa only [first, count, step] using this
  intro e he
  have hproj : ∀ d ∈ ds, ∃ p, Tup.select (tags d) e = .ok p ∧ tags p = tags d ∧
      ∀ q ∈ tags d, get q p = get q e := by
    intro d hd
    exact select_ok (qs := tags d) (x := e) (fun q hq =>
      he.mem_iff.2 (hp.mem_iff.1 (List.mem_flatMap.2 ⟨d, hd, hq⟩)))
  rw [strided_contains_iff (by rw [h2]; exact hqs) (by rw [h2]; exact he), h2]
  constructor
  · intro h d hd
    obtain ⟨p, p1, p2, p3⟩ := hproj d hd
    refine ⟨p, p1, (strided_contains_iff (hnd d hd) (by rw [p2])).2 ?_⟩
    intro q hq
    have hqq : q ∈ qs := hp.mem_iff.1 (List.mem_flatMap.2 ⟨d, hd, hq⟩)
    have := h q hqq
    rwa [h3 q hqq d hd hq, ← p3 q hq] at this
  · intro h q hq
    obtain ⟨d, hd, hqd⟩ := hown q hq
    obtain ⟨p, p1, p2⟩ := h d hd
    obtain ⟨p', p1', p2', p3'⟩ := hproj d hd
    rw [p1] at p1'
    have := Res.ok.inj p1'
    subst this
    have := (strided_contains_iff (hnd d hd) (by rw [p2'])).1 p2 q hqd
    rwa [p3' q hqd, ← h3 q hq d hd hqd] at this

/-- Free `front<Qs...>` and `extents<Qs...>` of a strided domain: the data of each
requested dimension; `back<Qs...>` is the projection of `back()`. -/
theorem C10_strided_free (qs : List τ) (hqs : qs.Nodup) (d : SDom τ) (hd : SValid d)
    (h : ∀ q ∈ qs, q ∈ tags d) :
    ∃ n f b, SDom.extentsOf qs d = .ok n ∧ SDom.frontOf qs d = .ok f ∧ SDom.backOf qs d = .ok b ∧
      tags n = qs ∧ tags f = qs ∧ tags b = qs ∧
      ∀ q ∈ qs, disp q n = count q d ∧ idx q f = first q d ∧
        (1 ≤ count q d → (idx q b : Int) = first q d + (count q d - 1) * step q d) := by
  let gd : τ → (U64 × I64 × I64) := fun q => match get q d with | .ok v => v | _ => (0, 0, 0)
  have hgd : ∀ q ∈ qs, get q d = .ok (gd q) ∧ SDom.ofDomains [q] [d] = .ok [(q, gd q)] := by
    intro q hq
    obtain ⟨v, hv⟩ := get_ok_iff_mem_tags.2 (h q hq)
    have : gd q = v := by simp only [gd, hv]
    rw [this]
    exact ⟨hv, single_of (fun _ _ h1 h2 => SDom.ofDomains_ok h1 h2) hv⟩
  have hn : SDom.extentsOf qs d = .ok (qs.map (fun q => (q, (gd q).2.1))) := by
    clear h hqs
    induction qs with
    | nil => rfl
    | cons q qs ih =>
      have := ih (fun p hp => hgd p (by simp [hp]))
      have e := (hgd q (by simp)).2
      simp [SDom.extentsOf, e, SDom.size, SDom.sizeAux, SDom.extents, this]
  have hf : SDom.frontOf qs d = .ok (qs.map (fun q => (q, (gd q).1))) := by
    have : qs.mapM (fun q => do
        let d1 ← SDom.ofDomains [q] [d]
        pure (SDom.front d1)) = .ok (qs.map (fun q => [(q, (gd q).1)])) := by
      refine mapM_ok (g := fun q => ([(q, (gd q).1)] : Elem τ)) ?_
      intro q hq
      rw [(hgd q hq).2]; rfl
    simp only [SDom.frontOf]
    rw [this]
    simp only [Res.ok_bind]
    exact ofTuples_singletons hqs (fun _ h => h)
  have hback : ∀ q ∈ qs, ∃ x : U64, SDom.back ([(q, gd q)] : SDom τ) = .ok [(q, x)] ∧
      (1 ≤ count q d → (x.toNat : Int) = first q d + (count q d - 1) * step q d) := by
    intro q hq
    have hg1 : get q ([(q, gd q)] : SDom τ) = get q d := by rw [(hgd q hq).1]; simp
    have hv1 : SValid ([(q, gd q)] : SDom τ) := by
      refine ⟨by simp, ?_⟩
      intro p hp
      have : p = q := by simpa using hp
      subst this
      have := hd.2 p (h p hq)
      simpa only [first, count, step, hg1] using this
    obtain ⟨e, e1, e2, e3⟩ := SDom.back_ok _ hv1
    have e4 := e3 q (by simp)
    match e, e2 with
    | [(t, x)], e2 =>
      have ht : t = q := by simpa using e2
      subst ht
      refine ⟨x, e1, ?_⟩
      intro hc
      have hx : idx t ([(t, x)] : Elem τ) = x.toNat := by simp [idx]
      rw [hx] at e4
      simp only [first, count, step, hg1] at e4 hc ⊢
      exact e4 hc
  choose! gb hgb1 hgb2 using hback
  have hb : SDom.backOf qs d = .ok (qs.map (fun q => (q, gb q))) := by
    have : qs.mapM (fun q => do
        let d1 ← SDom.ofDomains [q] [d]
        SDom.back d1) = .ok (qs.map (fun q => [(q, gb q)])) := by
      refine mapM_ok (g := fun q => ([(q, gb q)] : Elem τ)) ?_
      intro q hq
      rw [(hgd q hq).2]
      exact hgb1 q hq
    simp only [SDom.backOf]
    rw [this]
    simp only [Res.ok_bind]
    exact ofTuples_singletons hqs (fun _ h => h)
  refine ⟨_, _, _, hn, hf, hb, by simp, by simp, by simp, ?_⟩
  intro q hq
  have hg := (hgd q hq).1
  refine ⟨?_, ?_, ?_⟩
  · simp only [disp, count, get_map_tags hq, hg]
  · simp only [idx, first, get_map_tags hq, hg]
  · intro hc
    rw [idx_ok (get_map_tags hq)]; exact hgb2 q hq hc

/-- Free `extents<Qs...>`, `front<Qs...>`, `back<Qs...>` of a sparse domain: number
of indices, first and last index of each requested dimension. -/
theorem C10_sparse_free (qs : List τ) (hqs : qs.Nodup) (d : SpDom τ)
    (h : ∀ q ∈ qs, ∃ l, get q d = .ok l ∧ l ≠ [] ∧ l.length < 2 ^ 63) :
    ∃ n f b, SpDom.extentsOf qs d = .ok n ∧ SpDom.frontOf qs d = .ok f ∧ SpDom.backOf qs d = .ok b ∧
      tags n = qs ∧ tags f = qs ∧ tags b = qs ∧
      ∀ q ∈ qs, ∀ l, get q d = .ok l → disp q n = l.length ∧
        (∃ x, l.head? = some x ∧ get q f = .ok x) ∧ ∃ x, l.getLast? = some x ∧ get q b = .ok x := by
  choose! gd hgd hne hlen using h
  have h1 : ∀ q ∈ qs, SpDom.ofDomains [q] [d] = .ok [(q, gd q)] := fun q hq =>
    single_of (fun _ _ h1 h2 => spdom_ok h1 h2) (hgd q hq)
  have hn : SpDom.extentsOf qs d = .ok (qs.map (fun q => (q, (BitVec.ofNat 64 (gd q).length : I64)))) := by
    clear hqs hgd hne hlen
    induction qs with
    | nil => rfl
    | cons q qs ih =>
      have := ih (fun p hp => h1 p (by simp [hp]))
      simp [SpDom.extentsOf, h1 q (by simp), SpDom.size, SpDom.sizeAux, this, vals]
  have hread : ∀ q ∈ qs, SpDom.front ([(q, gd q)] : SpDom τ) = .ok [(q, (gd q).headD 0)] ∧
      SpDom.back ([(q, gd q)] : SpDom τ) = .ok [(q, (gd q).getLastD 0)] ∧
      (gd q).head? = some ((gd q).headD 0) ∧ (gd q).getLast? = some ((gd q).getLastD 0) := by
    intro q hq
    have := hne q hq
    cases hl : gd q with
    | nil => exact absurd hl this
    | cons x xs =>
      refine ⟨by simp [SpDom.front, mapVals, SpDom.read], ?_, by simp, by simp [List.getLast?_cons]⟩
      have : (x :: xs)[(x :: xs).length - 1]? = some ((x :: xs).getLastD 0) := by
        rw [← List.getLast?_eq_getElem?]; simp [List.getLast?_cons]
      simp only [SpDom.back, mapVals, SpDom.read]
      rw [this]; rfl
  have hf : SpDom.frontOf qs d = .ok (qs.map (fun q => (q, (gd q).headD 0))) := by
    have : qs.mapM (fun q => do
        let d1 ← SpDom.ofDomains [q] [d]
        SpDom.front d1) = .ok (qs.map (fun q => [(q, (gd q).headD 0)])) := by
      refine mapM_ok (g := fun q => ([(q, (gd q).headD 0)] : Elem τ)) ?_
      intro q hq
      rw [h1 q hq]; exact (hread q hq).1
    simp only [SpDom.frontOf]
    rw [this]
    simp only [Res.ok_bind]
    exact ofTuples_singletons hqs (fun _ h => h)
  have hb : SpDom.backOf qs d = .ok (qs.map (fun q => (q, (gd q).getLastD 0))) := by
    have : qs.mapM (fun q => do
        let d1 ← SpDom.ofDomains [q] [d]
        SpDom.back d1) = .ok (qs.map (fun q => [(q, (gd q).getLastD 0)])) := by
      refine mapM_ok (g := fun q => ([(q, (gd q).getLastD 0)] : Elem τ)) ?_
      intro q hq
      rw [h1 q hq]; exact (hread q hq).2.1
    simp only [SpDom.backOf]
    rw [this]
    simp only [Res.ok_bind]
    exact ofTuples_singletons hqs (fun _ h => h)
  refine ⟨_, _, _, hn, hf, hb, by simp, by simp, by simp, ?_⟩
  intro q hq l hl
  rw [hgd q hq] at hl
  have hl := Res.ok.inj hl
  subst hl
  refine ⟨?_, ⟨_, (hread q hq).2.2.1, get_map_tags hq⟩, ⟨_, (hread q hq).2.2.2, get_map_tags hq⟩⟩
  simp only [disp, get_map_tags hq]
  have := hlen q hq
  rw [BitVec.toInt_eq_toNat_cond, BitVec.toNat_ofNat]
  omega

/-- `operator bool` of a strided domain is the negation of `empty()`. -/
theorem C10_strided_bool (d : SDom τ) (b : Bool) :
    SDom.toBool d = .ok b ↔ SDom.empty d = .ok (!b) := by
  cases h : SDom.empty d <;> cases b <;> simp [SDom.toBool, h]

/-- The sparse constructor from explicit lists of elements stores, for each
dimension, the indices of the listed elements in order. -/
theorem C10_sparse_views (qs : List τ) (hqs : qs.Nodup) (ls : List (List U64))
    (hlen : ls.length = qs.length) :
    SpDom.ofViews qs (List.zipWith (fun q l => l.map (fun i => ([(q, i)] : Elem τ))) qs ls)
      = .ok (qs.zip ls) := by
  simp only [SpDom.ofViews, (TypeSeq.isUnique_iff qs).2 hqs, Res.guardIll, if_true, Res.ok_bind]
  clear hqs
  induction qs generalizing ls with
  | nil =>
    match ls, hlen with
    | [], _ => rfl
  | cons q qs ih =>
    match ls, hlen with
    | l :: ls, hlen =>
      have hm : (l.map (fun i => ([(q, i)] : Elem τ))).mapM
          (fun e => if e.tags = [q] then Tup.get q e else Res.ill) = .ok l := by
        have := mapM_ok (f := fun e => if e.tags = [q] then Tup.get q e else Res.ill)
          (g := fun e : Elem τ => match e with | (_, i) :: _ => i | [] => 0)
          (l := l.map (fun i => ([(q, i)] : Elem τ))) (by
            intro e he
            obtain ⟨i, _, rfl⟩ := List.mem_map.1 he
            simp)
        rw [this, List.map_map]
        congr 1
        exact List.map_id'' (fun _ => rfl) l
      simp only [List.zipWith_cons_cons, SpDom.ofViewsAux, hm, Res.ok_bind]
      rw [ih ls (by simpa using hlen)]
      rfl

/-! Non-vacuity. -/
example : SDom.replaceDimOf 'x' 'z' ([('x', (5, 3, 2)), ('y', (1, 4, 1))] : SDom Char) [('z', (0, 2, 7))]
      = .ok [('z', (0, 2, 7)), ('y', (1, 4, 1))] ∧
    SpDom.ofDomains ['y', 'x'] ([[('x', [2, 5])], [('y', [1])]] : List (SpDom Char))
      = .ok [('y', [1]), ('x', [2, 5])] ∧
    SpDom.removeDimsOf ([('x', [2, 5]), ('y', [1])] : SpDom Char) ['x'] = .ok [('y', [1])] ∧
    SpDom.backOf ['x'] ([('x', [2, 5]), ('y', [1])] : SpDom Char) = .ok [('x', 5)] ∧
    SDom.backOf ['x'] ([('x', (5, 3, 2)), ('y', (1, 4, 1))] : SDom Char) = .ok [('x', 9)] ∧
    SpDom.ofDomains ['x', 'x'] ([[('x', [1, 4])]] : List (SpDom Char)) = .ill := by decide

end DDC.Props
