import Verif.Spec.Domain
import Verif.Spec.Points
import Verif.Lemmas.Element

set_option linter.unusedSectionVars false

namespace DDC

variable {τ α β γ : Type} [DecidableEq τ]

namespace Tup

omit [DecidableEq τ] in
@[simp] theorem tags_map_snd (f : α → β) (x : Tup τ α) :
    tags (x.map (fun p => (p.1, f p.2))) = tags x := by
  simp [tags, Function.comp_def]

@[simp] theorem get_map_snd (q : τ) (f : α → β) (x : Tup τ α) :
    get q (x.map (fun p => (p.1, f p.2))) = f <$> get q x := by
  induction x with
  | nil => rfl
  | cons p x ih =>
    obtain ⟨t, v⟩ := p
    simp only [List.map_cons, get_cons]
    split
    · rfl
    · exact ih

theorem select_one {q : τ} {x : Tup τ α} {v : α} (h : get q x = .ok v) :
    select [q] x = .ok [(q, v)] := by
  have := mem_tags_of_get h
  simp [select, ofTuples, take_singleton, this, h]

/-- A pack expansion of one-tag tuples, merged back. -/
theorem mapM_ok {δ ε : Type} {f : δ → Res ε} {g : δ → ε} {l : List δ} (h : ∀ q ∈ l, f q = .ok (g q)) :
    l.mapM f = .ok (l.map g) := by
  induction l with
  | nil => rfl
  | cons a l ih =>
    simp [List.mapM_cons, h a (by simp), ih (fun q hq => h q (by simp [hq]))]

theorem ofTuples_singletons {g : τ → α} {qs l : List τ} (hl : l.Nodup) (h : ∀ q ∈ qs, q ∈ l) :
    ofTuples qs (l.map (fun q => [(q, g q)])) = .ok (qs.map (fun q => (q, g q))) := by
  induction qs with
  | nil => rfl
  | cons q qs ih =>
    have hq := h q (by simp)
    obtain ⟨l1, l2, rfl⟩ := List.append_of_mem hq
    have h1 : take q (((l1 ++ q :: l2).map (fun q => [(q, g q)])) : List (Tup τ α)) = .ok [(q, g q)] := by
      rw [List.map_append, List.map_cons]
      refine take_ok (by simp) ?_ ?_
      · intro y hy
        obtain ⟨z, hz, rfl⟩ := List.mem_map.1 hy
        simp only [tags_cons, tags_nil, List.mem_singleton]
        rintro rfl
        simp [List.nodup_append] at hl
        exact hl.2.2 _ hz |>.1 rfl
      · intro y hy
        obtain ⟨z, hz, rfl⟩ := List.mem_map.1 hy
        simp only [tags_cons, tags_nil, List.mem_singleton]
        rintro rfl
        simp [List.nodup_append] at hl
        exact hl.2.1.1 hz
    rw [ofTuples, h1, ih (fun p hp => h p (by simp [hp]))]
    simp

/-- Values read tag by tag rebuild the tuple. -/
theorem map_tags_eq {g : τ → α} {x : Tup τ α} (hnd : (tags x).Nodup)
    (h : ∀ q ∈ tags x, get q x = .ok (g q)) : (tags x).map (fun q => (q, g q)) = x := by
  induction x with
  | nil => rfl
  | cons p x ih =>
    obtain ⟨t, v⟩ := p
    simp only [tags_cons, List.nodup_cons] at hnd
    have h0 := h t (by simp)
    simp at h0
    simp only [tags_cons, List.map_cons, h0]
    congr 1
    apply ih hnd.2
    intro q hq
    have := h q (by simp [hq])
    have hne : q ≠ t := by rintro rfl; exact hnd.1 hq
    simpa [hne] using this

theorem get_map_tags {g : τ → α} {qs : List τ} {q : τ} (h : q ∈ qs) :
    get q ((qs.map (fun q => (q, g q))) : Tup τ α) = .ok (g q) := by
  induction qs with
  | nil => simp at h
  | cons p qs ih =>
    simp only [List.map_cons, get_cons]
    split
    · rename_i e; subst e; rfl
    · rename_i e
      exact ih (by simpa [e] using h)

omit [DecidableEq τ] in
@[simp] theorem tags_map_tags (g : τ → α) (qs : List τ) :
    tags (qs.map (fun q => (q, g q))) = qs := by simp [tags, Function.comp_def]

theorem ext_get' {x y : Tup τ α} (ht : tags x = tags y) (hnd : (tags x).Nodup)
    (h : ∀ q v, get q x = .ok v → get q y = .ok v) : x = y := by
  refine ext_get ht hnd ?_
  intro q hq
  obtain ⟨v, hv⟩ := get_ok_iff_mem_tags.2 hq
  rw [hv, h q v hv]

end Tup

namespace Dom
open Tup Spec

theorem tags_beg (d : Dom τ) : tags (beg d) = tags d := tags_map_snd (fun p : U64 × U64 => p.1) d
theorem tags_fin (d : Dom τ) : tags (fin d) = tags d := tags_map_snd (fun p : U64 × U64 => p.2) d

theorem get_beg (q : τ) (d : Dom τ) : get q (beg d) = Prod.fst <$> get q d :=
  get_map_snd q (fun p : U64 × U64 => p.1) d
theorem get_fin (q : τ) (d : Dom τ) : get q (fin d) = Prod.snd <$> get q d :=
  get_map_snd q (fun p : U64 × U64 => p.2) d

theorem get_beg_ok {q : τ} {d : Dom τ} {b e : U64} (h : get q d = .ok (b, e)) :
    get q (beg d) = .ok b := by rw [get_beg, h]; rfl
theorem get_fin_ok {q : τ} {d : Dom τ} {b e : U64} (h : get q d = .ok (b, e)) :
    get q (fin d) = .ok e := by rw [get_fin, h]; rfl

theorem mk_ok {b e : Elem τ} (hb : (tags b).Nodup) (hs : ∀ q ∈ tags b, q ∈ tags e) :
    ∃ d, mk b e = .ok d ∧ tags d = tags b ∧
      ∀ q x y, get q b = .ok x → get q e = .ok y → get q d = .ok (x, y) := by
  obtain ⟨r, h1, h2, h3⟩ := zipVals_ok (f := fun (x y : U64) => Res.ok (x, y)) (x := b) (y := e)
    (by
      intro q v hq
      obtain ⟨w, hw⟩ := get_ok_iff_mem_tags.2 (hs q (List.mem_map_of_mem (f := Prod.fst) hq))
      exact ⟨w, (v, w), hw, rfl⟩)
  refine ⟨r, ?_, h2, h3⟩
  have : TypeSeq.isUnique (tags b) = true := (TypeSeq.isUnique_iff _).2 hb
  simp [mk, this, h1]

theorem ofSize_ok {b : Elem τ} {n : Vect τ} (hb : (tags b).Nodup) (ht : tags b = tags n) :
    ∃ d, ofSize b n = .ok d ∧ tags d = tags b ∧
      ∀ q x y, get q b = .ok x → get q n = .ok y → get q d = .ok (x, x + y) := by
  obtain ⟨e, h1, h2, _, h4⟩ := Elem.addVec_spec hb (ht ▸ hb) (fun q hq => by rw [ht]; exact hq)
  obtain ⟨d, g1, g2, g3⟩ := mk_ok (b := b) (e := e) hb (fun q hq => by rw [h2]; exact hq)
  refine ⟨d, by simp [ofSize, ht, h1, g1], g2, ?_⟩
  intro q x y hx hy
  exact g3 q x (x + y) hx (h4 q x y hx hy)

theorem extents_ok (d : Dom τ) :
    ∃ n, extents d = .ok n ∧ tags n = tags d ∧
      ∀ q b e, get q d = .ok (b, e) → get q n = .ok (e - b) := by
  obtain ⟨r, h1, h2, h3⟩ := Elem.sub_spec (a := fin d) (b := beg d)
    (fun q => by rw [tags_fin, tags_beg])
  refine ⟨r, h1, by rw [h2, tags_fin], ?_⟩
  intro q b e h
  exact h3 q e b (get_fin_ok h) (get_beg_ok h)

theorem extents_eq (d : Dom τ) (hd : (tags d).Nodup) :
    extents d = .ok (d.map (fun p => (p.1, p.2.2 - p.2.1))) := by
  obtain ⟨n, h1, h2, h3⟩ := extents_ok d
  rw [h1]; congr 1
  have ht : tags (d.map (fun p => (p.1, p.2.2 - p.2.1))) = tags d :=
    tags_map_snd (fun p : U64 × U64 => p.2 - p.1) d
  refine (ext_get' (by rw [ht, h2]) (by rw [ht]; exact hd) ?_).symm
  intro q v hv
  rw [get_map_snd q (fun p : U64 × U64 => p.2 - p.1) d] at hv
  rcases get_cases q d with ⟨_, h⟩ | ⟨_, ⟨b, e⟩, h⟩
  · rw [h] at hv; cases hv
  · rw [h] at hv
    rw [h3 q b e h]; exact hv

theorem extent_ok {q : τ} {d : Dom τ} {b e : U64} (h : get q d = .ok (b, e)) :
    extent q d = .ok [(q, e - b)] := by
  simp [extent, select_one (get_fin_ok h), select_one (get_beg_ok h), Elem.sub, TypeSeq.same,
    TypeSeq.contains, zipVals]

/-- Closed form of the fold of `size()`: product modulo `2^64`. -/
theorem sizeAux_ok (d : Dom τ) (qs : List τ) (h : ∀ q ∈ qs, q ∈ tags d) (acc : U64) :
    ∃ s, sizeAux d qs acc = .ok s ∧
      ∀ k : Nat, acc.toNat = k % 2 ^ 64 → (∀ q ∈ qs, lo q d ≤ hi q d) →
        s.toNat = (k * (qs.map (fun q => len q d)).prod) % 2 ^ 64 := by
  induction qs generalizing acc with
  | nil => exact ⟨acc, rfl, fun k hk _ => by simpa using hk⟩
  | cons q qs ih =>
    obtain ⟨⟨b, e⟩, hq⟩ := get_ok_iff_mem_tags.2 (h q (by simp))
    obtain ⟨s, h1, h2⟩ := ih (fun p hp => h p (by simp [hp])) (acc * (e - b))
    refine ⟨s, by simp [sizeAux, extent_ok hq, h1], ?_⟩
    intro k hk hv
    have hlen : (e - b).toNat = len q d := by
      have := hv q (by simp)
      simp only [lo, hi, len, hq] at this ⊢
      rw [BitVec.toNat_sub]
      have := e.isLt; have := b.isLt
      omega
    have := h2 (k * len q d) (by rw [BitVec.toNat_mul, hk, hlen, Nat.mod_mul_mod])
      (fun p hp => hv p (by simp [hp]))
    rw [this, List.map_cons, List.prod_cons, Nat.mul_assoc]

theorem size_ok (d : Dom τ) (hv : Valid d) :
    ∃ s, size d = .ok s ∧ s.toNat = card d % 2 ^ 64 := by
  obtain ⟨s, h1, h2⟩ := sizeAux_ok d (tags d) (fun _ h => h) 1
  refine ⟨s, h1, ?_⟩
  have := h2 1 (by simp) (fun q hq => (hv.2 q hq).1)
  simpa [card] using this

theorem size_total (d : Dom τ) : ∃ s, size d = .ok s := by
  obtain ⟨s, h1, _⟩ := sizeAux_ok d (tags d) (fun _ h => h) 1
  exact ⟨s, h1⟩

theorem back_ok (d : Dom τ) (hd : (tags d).Nodup) :
    ∃ e, back d = .ok e ∧ tags e = tags d ∧ ∀ q b f, get q d = .ok (b, f) → get q e = .ok (f - 1) := by
  let g : τ → U64 := fun q => match get q d with | .ok (_, f) => f - 1 | _ => 0
  have h1 : (tags d).mapM (fun q => do let e ← Tup.select [q] (fin d); Elem.subInt e 1)
      = .ok ((tags d).map (fun q => [(q, g q)])) := by
    refine mapM_ok (g := fun q => [(q, g q)]) ?_
    intro q hq
    obtain ⟨⟨b, f⟩, h⟩ := get_ok_iff_mem_tags.2 hq
    simp [select_one (get_fin_ok h), Elem.subInt, g, h]
  refine ⟨(tags d).map (fun q => (q, g q)), ?_, by simp, ?_⟩
  · simp only [back]
    rw [h1]
    simp only [Res.ok_bind]
    exact ofTuples_singletons hd (fun _ h => h)
  · intro q b f h
    rw [get_map_tags (mem_tags_of_get h)]
    simp [g, h]

theorem _root_.DDC.Spec.idx_ok {q : τ} {e : Elem τ} {x : U64} (h : get q e = .ok x) :
    idx q e = x.toNat := by simp [idx, h]
theorem _root_.DDC.Spec.disp_ok {q : τ} {e : Vect τ} {x : I64} (h : get q e = .ok x) :
    disp q e = x.toInt := by simp [disp, h]
theorem _root_.DDC.Spec.lo_ok {q : τ} {d : Dom τ} {b e : U64} (h : get q d = .ok (b, e)) :
    lo q d = b.toNat := by simp [lo, h]
theorem _root_.DDC.Spec.hi_ok {q : τ} {d : Dom τ} {b e : U64} (h : get q d = .ok (b, e)) :
    hi q d = e.toNat := by simp [hi, h]

theorem idx_beg (q : τ) (d : Dom τ) : idx q (beg d) = lo q d := by
  simp only [idx, lo, get_beg]
  cases get q d <;> rfl
theorem idx_fin (q : τ) (d : Dom τ) : idx q (fin d) = hi q d := by
  simp only [idx, hi, get_fin]
  cases get q d <;> rfl

/-- Signed reading of a difference of ordered bounds. -/
theorem toInt_sub_of_le {b e : U64} (h : b.toNat ≤ e.toNat) (h2 : e.toNat - b.toNat < 2 ^ 63) :
    (e - b).toInt = (e.toNat : Int) - b.toNat := by
  rw [BitVec.toInt_eq_toNat_cond, BitVec.toNat_sub]
  have := e.isLt; have := b.isLt
  split <;> omega

theorem toNat_add_of_range {b : U64} {x : I64} (h : 0 ≤ (b.toNat : Int) + x.toInt)
    (h2 : (b.toNat : Int) + x.toInt < 2 ^ 64) : ((b + x).toNat : Int) = b.toNat + x.toInt := by
  have h5 := BitVec.toNat_add b x
  have h6 := BitVec.toInt_eq_toNat_cond x
  have ha := b.isLt
  have hx := x.isLt
  rw [h5]
  split at h6 <;> omega

/-- Arguments whose packs partition the tags of the domain. -/
theorem ownedOnce_of_perm {ts : List τ} (hts : ts.Nodup) {es : List (Tup τ α)}
    (hp : (es.flatMap tags).Perm ts) : ∀ q ∈ ts, OwnedOnce q es := by
  intro q hq
  have hnd : (es.flatMap tags).Nodup := hp.nodup_iff.2 hts
  have hq' : q ∈ es.flatMap tags := hp.mem_iff.2 hq
  obtain ⟨x, hx, hqx⟩ := List.mem_flatMap.1 hq'
  obtain ⟨l, r, rfl⟩ := List.append_of_mem hx
  simp only [List.flatMap_append, List.flatMap_cons, List.nodup_append, List.mem_append,
    List.mem_flatMap] at hnd
  refine ⟨l, x, r, rfl, hqx, ?_, ?_⟩
  · intro y hy h
    exact hnd.2.2 q ⟨y, hy, h⟩ q (Or.inl hqx) rfl
  · intro y hy h
    exact hnd.2.1.2.2 q hqx q ⟨y, hy, h⟩ rfl

theorem sum_length_of_perm {ts : List τ} {es : List (Tup τ α)}
    (hp : (es.flatMap tags).Perm ts) : ts.length = (es.map List.length).sum := by
  rw [← hp.length_eq, List.length_flatMap]
  congr 1
  exact List.map_congr_left (fun x _ => length_tags x)

/-! ## Membership -/

theorem containsLoop_iff {e : Elem τ} {d : Dom τ} (ht : tags e = tags d) (hd : (tags d).Nodup) :
    containsLoop (vals e) (vals d) = true ↔ InBox d e := by
  induction d generalizing e with
  | nil => cases e with
    | nil => simp [vals, containsLoop, InBox]
    | cons p e => simp at ht
  | cons p d ih =>
    cases e with
    | nil => simp at ht
    | cons r e =>
      obtain ⟨t, b, f⟩ := p
      obtain ⟨t', x⟩ := r
      simp only [tags_cons, List.cons.injEq] at ht
      obtain ⟨rfl, ht⟩ := ht
      simp only [tags_cons, List.nodup_cons] at hd
      have := ih ht hd.2
      simp only [vals, List.map_cons, containsLoop]
      have e1 : InBox ((t', b, f) :: d) ((t', x) :: e) ↔
          ((b.toNat ≤ x.toNat ∧ x.toNat < f.toNat) ∧ InBox d e) := by
        simp only [InBox, tags_cons, List.mem_cons, forall_eq_or_imp, lo, hi, idx, get_cons, if_true]
        refine and_congr_right fun _ => ?_
        refine forall_congr' fun q => forall_congr' fun hq => ?_
        have hne : q ≠ t' := by rintro rfl; exact hd.1 hq
        simp only [hne, if_false]
      rw [e1, ← this]
      simp only [vals, BitVec.lt_def, ge_iff_le, BitVec.le_def]
      by_cases h : x.toNat < b.toNat ∨ f.toNat ≤ x.toNat
      · have h' : ¬ (b.toNat ≤ x.toNat ∧ x.toNat < f.toNat) := by omega
        simp [h, h']
      · have h' : b.toNat ≤ x.toNat ∧ x.toNat < f.toNat := by omega
        simp [h, h']

theorem inBox_congr {d : Dom τ} {e e' : Elem τ} (h : ∀ q ∈ tags d, get q e = get q e') :
    InBox d e ↔ InBox d e' := by
  refine forall_congr' fun q => forall_congr' fun hq => ?_
  simp only [idx, h q hq]

/-- Meaning of `contains` for any grouping and order of the arguments. -/
theorem contains_iff {d : Dom τ} (hd : (tags d).Nodup) {es : List (Elem τ)}
    (hl : d.length = (es.map List.length).sum) {e : Elem τ} (he : ofTuples (tags d) es = .ok e) :
    ∃ b, contains d es = .ok b ∧ (b = true ↔ InBox d e) := by
  have ht : tags e = tags d := by
    obtain ⟨r, h1, h2, _⟩ := ofTuples_ok (ofTuples_inv he)
    rw [he] at h1; injection h1 with h1; rw [h1, h2]
  refine ⟨containsLoop (vals e) (vals d), ?_, containsLoop_iff ht hd⟩
  simp [contains, hl, he]

/-- Spec enumeration of the points of a box. -/
def _root_.DDC.Spec.points (d : Dom τ) : List (Elem τ) :=
  cart (d.map (fun p => (p.1, axis p.2.1 p.2.2)))

theorem inBox_cons {t : τ} {b f x : U64} {d : Dom τ} {e : Elem τ} (hd : t ∉ tags d) :
    InBox ((t, b, f) :: d) ((t, x) :: e) ↔
      ((b.toNat ≤ x.toNat ∧ x.toNat < f.toNat) ∧ InBox d e) := by
  simp only [InBox, tags_cons, List.mem_cons, forall_eq_or_imp, lo, hi, idx, get_cons, if_true]
  refine and_congr_right fun _ => ?_
  refine forall_congr' fun q => forall_congr' fun hq => ?_
  have hne : q ≠ t := by rintro rfl; exact hd hq
  simp only [hne, if_false]

theorem mem_points {d : Dom τ} (hd : (tags d).Nodup) {e : Elem τ} :
    e ∈ points d ↔ tags e = tags d ∧ InBox d e := by
  simp only [points, mem_cart, List.map_map, Function.comp_def]
  refine and_congr_right fun ht => ?_
  change tags e = tags d at ht
  induction d generalizing e with
  | nil => cases e with
    | nil => simp [InBox]
    | cons p e => simp at ht
  | cons p d ih =>
    cases e with
    | nil => simp at ht
    | cons r e =>
      obtain ⟨t, b, f⟩ := p
      obtain ⟨t', x⟩ := r
      simp only [tags_cons, List.cons.injEq] at ht
      obtain ⟨rfl, ht⟩ := ht
      simp only [tags_cons, List.nodup_cons] at hd
      rw [inBox_cons hd.1, ← ih hd.2 ht, List.map_cons, List.forall₂_cons, mem_axis]

theorem nodup_points (d : Dom τ) : (points d).Nodup := by
  refine nodup_cart ?_
  intro a ha
  obtain ⟨p, _, rfl⟩ := List.mem_map.1 ha
  exact nodup_axis _ _

theorem card_cons {t : τ} {b f : U64} {d : Dom τ} (hd : t ∉ tags d) :
    card ((t, b, f) :: d) = (f.toNat - b.toNat) * card d := by
  simp only [card, tags_cons, List.map_cons, List.prod_cons, len, lo, hi, get_cons, if_true]
  congr 2
  refine List.map_congr_left ?_
  intro q hq
  have hne : q ≠ t := by rintro rfl; exact hd hq
  simp only [hne, if_false]

theorem length_points {d : Dom τ} (hd : (tags d).Nodup) : (points d).length = card d := by
  simp only [points, length_cart, List.map_map, Function.comp_def, length_axis]
  induction d with
  | nil => rfl
  | cons p d ih =>
    obtain ⟨t, b, f⟩ := p
    simp only [tags_cons, List.nodup_cons] at hd
    rw [card_cons hd.1, List.map_cons, List.prod_cons, ih hd.2]

theorem contains_one {d : Dom τ} (hd : (tags d).Nodup) {e : Elem τ} (hs : SameTags e d) :
    ∃ b, contains d [e] = .ok b ∧ (b = true ↔ InBox d e) := by
  obtain ⟨r, h1, h2, h3⟩ := select_ok (qs := tags d) (x := e) (fun q hq => hs.mem_iff.2 hq)
  have hl : d.length = (([e] : List (Elem τ)).map List.length).sum := by
    have := hs.length_eq
    simpa using this.symm
  obtain ⟨b, g1, g2⟩ := contains_iff hd hl h1
  exact ⟨b, g1, g2.trans (inBox_congr h3)⟩

end Dom

namespace Vect
open Tup

theorem ofInt_sub_toInt (a b : I64) : BitVec.ofInt 64 (a.toInt - b.toInt) = a - b := by
  apply BitVec.eq_of_toInt_eq
  rw [BitVec.toInt_ofInt, BitVec.toInt_sub]

theorem ofInt_add_toInt (a b : I64) : BitVec.ofInt 64 (a.toInt + b.toInt) = a + b := by
  simp [BitVec.ofInt_add]

theorem sub_same {v w : Vect τ} (hv : (tags v).Nodup) (ht : tags v = tags w)
    (hr : ∀ q a b, get q v = .ok a → get q w = .ok b → InRange (a.toInt - b.toInt)) :
    ∃ r, sub v w = .ok r ∧ tags r = tags v ∧
      ∀ q a b, get q v = .ok a → get q w = .ok b → get q r = .ok (a - b) := by
  have hw : (tags w).Nodup := ht ▸ hv
  obtain ⟨r, h1, h2, h3, h4⟩ := opAssign_ok (op := sSub) hv hw
    (by
      intro q x hq
      have hqt := List.mem_map_of_mem (f := Prod.fst) hq
      obtain ⟨a, ha⟩ := get_ok_iff_mem_tags.2 (show q ∈ tags v by rw [ht]; exact hqt)
      exact ⟨a, _, ha, signedRes_ok (hr q a x ha (get_of_mem hw hq))⟩)
  have hlen : w.length ≤ v.length := by
    rw [← length_tags v, ← length_tags w, ht]; exact Nat.le_refl _
  refine ⟨r, by simp [sub, subAssign, hlen, h1], h2, ?_⟩
  intro q a b ha hb
  rw [h4 q b (get_mem hb) a ha]
  simp only [sSub]
  rw [signedRes_ok (hr q a b ha hb), ofInt_sub_toInt]

theorem sub_same_ub {v w : Vect τ} (hv : (tags v).Nodup) (ht : tags v = tags w)
    (hr : ∃ q a b, get q v = .ok a ∧ get q w = .ok b ∧ ¬ InRange (a.toInt - b.toInt)) :
    sub v w = .ub := by
  have hw : (tags w).Nodup := ht ▸ hv
  have hlen : w.length ≤ v.length := by
    rw [← length_tags v, ← length_tags w, ht]; exact Nat.le_refl _
  have h := opAssign_ub (op := sSub) hv hw
    (by
      intro q x hq
      have hqt := List.mem_map_of_mem (f := Prod.fst) hq
      obtain ⟨a, ha⟩ := get_ok_iff_mem_tags.2 (show q ∈ tags v by rw [ht]; exact hqt)
      exact ⟨a, ha, signedRes_cases _⟩)
    (by
      obtain ⟨q, a, b, ha, hb, h⟩ := hr
      exact ⟨q, b, a, get_mem hb, ha, signedRes_ub h⟩)
  simp [sub, subAssign, hlen, h]

end Vect
end DDC
