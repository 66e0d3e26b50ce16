import Verif.Lemmas.Strided

set_option linter.unusedSectionVars false

namespace DDC

variable {τ : Type} [DecidableEq τ]

namespace SDom
open Tup Spec

theorem onGrid_ok {q : τ} {d : SDom τ} {b : U64} {n s : I64} (h : get q d = .ok (b, n, s)) (i : Int) :
    OnGrid q d i ↔ ∃ k : Int, 0 ≤ k ∧ k < n.toInt ∧ i = b.toNat + k * s.toInt := by
  simp only [OnGrid, first_ok h, count_ok h, step_ok h]

/-- Along `q` the domain is non-empty, or empty but away from the lower end of the
index range by at least its step minus one. -/
def _root_.DDC.Spec.SafeAxis (q : τ) (d : SDom τ) : Prop := 1 ≤ count q d ∨ step q d ≤ first q d + 1

theorem contains1d_safe {q : τ} {d : SDom τ} {b : U64} {n s : I64} (hv : SValid d)
    (h : get q d = .ok (b, n, s)) (hs : SafeAxis q d) (i : U64) :
    ∃ c, contains1d i b n s = .ok c ∧ (c = true ↔ OnGrid q d i.toNat) := by
  obtain ⟨h1, h2, h3, h4⟩ := svalid_get hv h
  simp only [onGrid_ok h]
  by_cases hc : 1 ≤ n.toInt
  · exact contains1d_ok hc h2 h3 h4
  · refine ⟨false, contains1d_empty (by omega) h2 ?_, ?_⟩
    · rw [SafeAxis, count_ok h, step_ok h, first_ok h] at hs; omega
    · simp only [Bool.false_eq_true, false_iff]
      rintro ⟨k, a, b, _⟩; omega

theorem svalid_tail {p : τ × U64 × I64 × I64} {d : SDom τ} (hv : SValid (p :: d)) : SValid d := by
  obtain ⟨t, b, n, s⟩ := p
  have hnd := hv.1
  simp only [tags_cons, List.nodup_cons] at hnd
  refine ⟨hnd.2, ?_⟩
  intro q hq
  have hne : q ≠ t := by rintro rfl; exact hnd.1 hq
  have := hv.2 q (by simp [hq])
  simpa [first, count, step, hne] using this

theorem containsLoop_ok {e : Elem τ} {d : SDom τ} (ht : tags e = tags d) (hv : SValid d)
    (hs : ∀ q ∈ tags d, SafeAxis q d) :
    ∃ c, containsLoop (vals e) (vals d) = .ok c ∧ (c = true ↔ InGrid d e) := by
  induction d generalizing e with
  | nil => exact ⟨true, by cases e with | nil => rfl | cons p e => simp at ht, by simp [InGrid]⟩
  | cons p d ih =>
    cases e with
    | nil => simp at ht
    | cons r e =>
      obtain ⟨t, b, n, s⟩ := p
      obtain ⟨t', x⟩ := r
      simp only [tags_cons, List.cons.injEq] at ht
      obtain ⟨rfl, ht⟩ := ht
      have hnd := hv.1
      simp only [tags_cons, List.nodup_cons] at hnd
      have hne : ∀ q ∈ tags d, q ≠ t' := by rintro q hq rfl; exact hnd.1 hq
      obtain ⟨c, h1, h2⟩ := ih ht (svalid_tail hv) (by
        intro q hq
        have := hs q (by simp [hq])
        simpa [SafeAxis, first, count, step, hne q hq] using this)
      have hg : get t' ((t', b, n, s) :: d) = .ok (b, n, s) := by simp
      obtain ⟨c0, g1, g2⟩ := contains1d_safe hv hg (hs t' (by simp)) x
      have e1 : InGrid ((t', b, n, s) :: d) ((t', x) :: e) ↔
          (OnGrid t' ((t', b, n, s) :: d) x.toNat ∧ InGrid d e) := by
        simp only [InGrid, tags_cons, List.mem_cons, forall_eq_or_imp, idx, get_cons, if_true]
        refine and_congr_right fun _ => ?_
        refine forall_congr' fun q => forall_congr' fun hq => ?_
        simp only [OnGrid, first, count, step, get_cons, hne q hq, if_false]
      rw [e1, ← g2, ← h2]
      simp only [vals, List.map_cons, containsLoop, g1, Res.ok_bind]
      cases c0 with
      | false => exact ⟨false, by simp⟩
      | true => exact ⟨c, by simpa [vals] using h1, by simp⟩

theorem inGrid_congr {d : SDom τ} {e e' : Elem τ} (h : ∀ q ∈ tags d, get q e = get q e') :
    InGrid d e ↔ InGrid d e' := by
  refine forall_congr' fun q => forall_congr' fun hq => ?_
  simp only [idx, h q hq]

/-- Meaning of `contains` for any grouping and order of the arguments. -/
theorem contains_ok {d : SDom τ} (hv : SValid d) (hs : ∀ q ∈ tags d, SafeAxis q d) {es : List (Elem τ)}
    (hp : (es.flatMap tags).Perm (tags d)) {e : Elem τ} (he : ofTuples (tags d) es = .ok e) :
    ∃ c, contains d es = .ok c ∧ (c = true ↔ InGrid d e) := by
  have ht : tags e = tags d := by
    obtain ⟨r, h1, h2, _⟩ := ofTuples_ok (ofTuples_inv he)
    rw [he] at h1; injection h1 with h1; rw [h1, h2]
  have hl : d.length = (es.map List.length).sum := by
    rw [← length_tags d]; exact Dom.sum_length_of_perm hp
  obtain ⟨c, h1, h2⟩ := containsLoop_ok ht hv hs
  exact ⟨c, by simp [contains, hl, he, h1], h2⟩

theorem contains_one {d : SDom τ} (hv : SValid d) (hs : ∀ q ∈ tags d, SafeAxis q d) {e : Elem τ}
    (ht : SameTags e d) : ∃ c, contains d [e] = .ok c ∧ (c = true ↔ InGrid d e) := by
  obtain ⟨r, h1, h2, h3⟩ := select_ok (qs := tags d) (x := e) (fun q hq => ht.mem_iff.2 hq)
  obtain ⟨c, g1, g2⟩ := contains_ok hv hs (es := [e]) (by simpa [SameTags] using ht) h1
  exact ⟨c, g1, g2.trans (inGrid_congr h3)⟩

/-- Closed form of the fold of `size()`. -/
theorem sizeAux_ok (d : SDom τ) (qs : List τ) (h : ∀ q ∈ qs, q ∈ tags d) (acc : U64) :
    ∃ s, sizeAux d qs acc = .ok s ∧
      ∀ k : Nat, acc.toNat = k % 2 ^ 64 → (∀ q ∈ qs, 0 ≤ count q d) →
        s.toNat = (k * (qs.map (fun q => (count q d).toNat)).prod) % 2 ^ 64 := by
  induction qs generalizing acc with
  | nil => exact ⟨acc, rfl, fun k hk _ => by simpa using hk⟩
  | cons q qs ih =>
    obtain ⟨⟨b, n, st⟩, hq⟩ := get_ok_iff_mem_tags.2 (h q (by simp))
    obtain ⟨s, h1, h2⟩ := ih (fun p hp => h p (by simp [hp])) (acc * n)
    refine ⟨s, by simp [sizeAux, get_extents_ok hq, h1], ?_⟩
    intro k hk hv
    have hlen : n.toNat = (count q d).toNat := by
      have := hv q (by simp)
      rw [count_ok hq] at this ⊢
      have := toNat_of_nonneg this
      omega
    have := h2 (k * (count q d).toNat) (by rw [BitVec.toNat_mul, hk, hlen, Nat.mod_mul_mod])
      (fun p hp => hv p (by simp [hp]))
    rw [this, List.map_cons, List.prod_cons, Nat.mul_assoc]

/-- Number of points. -/
def _root_.DDC.Spec.scard (d : SDom τ) : Nat := ((tags d).map (fun q => (count q d).toNat)).prod

theorem size_ok (d : SDom τ) (hv : SValid d) :
    ∃ s, size d = .ok s ∧ s.toNat = scard d % 2 ^ 64 := by
  obtain ⟨s, h1, h2⟩ := sizeAux_ok d (tags d) (fun _ h => h) 1
  refine ⟨s, h1, ?_⟩
  have := h2 1 (by simp) (fun q hq => (hv.2 q hq).1)
  simpa [scard] using this

theorem prod_eq_zero {l : List Nat} : l.prod = 0 ↔ ∃ a ∈ l, a = 0 := by
  induction l with
  | nil => simp
  | cons a l ih => simp [ih, eq_comm]

theorem empty_ok (d : SDom τ) (hv : SValid d) (hc : scard d < 2 ^ 64) :
    ∃ b, empty d = .ok b ∧ (b = true ↔ ∃ q ∈ tags d, count q d = 0) := by
  obtain ⟨s, h1, h2⟩ := size_ok d hv
  refine ⟨decide (s = 0), by simp [empty, h1], ?_⟩
  rw [decide_eq_true_iff, ← BitVec.toNat_inj, h2, Nat.mod_eq_of_lt hc]
  simp only [scard, BitVec.ofNat_eq_ofNat, BitVec.toNat_ofNat, Nat.zero_mod, prod_eq_zero,
    List.mem_map]
  simp only [exists_exists_and_eq_and]
  refine exists_congr fun q => and_congr_right fun hq => ?_
  have := (hv.2 q hq).1
  omega

/-- `operator()` on a valid position. -/
theorem at_ok {d : SDom τ} (hv : SValid d) {v : Vect τ} (ht : tags v = tags d)
    (hr : ∀ q ∈ tags d, 0 ≤ disp q v ∧ disp q v < count q d) :
    ∃ e, at' d v = .ok e ∧ tags e = tags d ∧
      ∀ q ∈ tags d, (idx q e : Int) = first q d + disp q v * step q d := by
  have hb : ∀ q b n s x, get q d = .ok (b, n, s) → get q v = .ok x →
      0 ≤ x.toInt * s.toInt ∧ x.toInt * s.toInt < n.toInt * s.toInt := by
    intro q b n s x h hx
    have h1 := hr q (mem_tags_of_get h)
    rw [disp_ok hx, count_ok h] at h1
    obtain ⟨_, h3, _, _⟩ := svalid_get hv h
    exact ⟨Int.mul_nonneg h1.1 (by omega), Int.mul_lt_mul_of_pos_right h1.2 (by omega)⟩
  have hrng : ∀ q a b, get q v = .ok a → get q (strides d) = .ok b → Vect.InRange (a.toInt * b.toInt) := by
    intro q a b ha hb'
    have hq : q ∈ tags d := by rw [← ht]; exact mem_tags_of_get ha
    obtain ⟨⟨c, n, s⟩, h⟩ := get_ok_iff_mem_tags.2 hq
    rw [get_strides_ok h] at hb'; injection hb' with hb'; subst hb'
    have := hb q c n s a h ha
    have := svalid_get hv h
    unfold Vect.InRange; omega
  obtain ⟨p, p1, p2, p3⟩ := prod_ok (v := v) (w := strides d) (by rw [ht, tags_strides]) hrng
    (by rw [ht]; exact hv.1)
  obtain ⟨e, h1, h2, _, h4⟩ := Elem.addVec_spec (e := front d) (v := p)
    (by rw [tags_front]; exact hv.1) (by rw [p2, ht]; exact hv.1)
    (by intro q hq; rwa [tags_front, ← ht, ← p2])
  refine ⟨e, by simp [at', ht, p1, h1], by rw [h2, tags_front], ?_⟩
  intro q hq
  obtain ⟨⟨b, n, s⟩, h⟩ := get_ok_iff_mem_tags.2 hq
  obtain ⟨x, hx⟩ := get_ok_iff_mem_tags.2 (show q ∈ tags v by rw [ht]; exact hq)
  have hp := p3 q x s hx (get_strides_ok h)
  rw [idx_ok (h4 q b _ (get_front_ok h) hp), first_ok h, disp_ok hx, step_ok h]
  have hm := toInt_mul_of_range (hrng q x s hx (get_strides_ok h))
  have := hb q b n s x h hx
  have := svalid_get hv h
  rw [← hm]
  exact Dom.toNat_add_of_range (by omega) (by omega)

/-- `distance_from_front` of a contained element. -/
theorem distance_ok {d : SDom τ} (hv : SValid d) (hs : ∀ q ∈ tags d, SafeAxis q d)
    {es : List (Elem τ)} (hp : (es.flatMap tags).Perm (tags d)) {e : Elem τ}
    (he : ofTuples (tags d) es = .ok e) (hin : InGrid d e) :
    ∃ v, distanceFromFront d es = .ok v ∧ tags v = tags d ∧
      ∀ q ∈ tags d, (idx q e : Int) = first q d + disp q v * step q d ∧
        0 ≤ disp q v ∧ disp q v < count q d := by
  obtain ⟨c, c1, c2⟩ := contains_ok hv hs hp he
  have hc : c = true := c2.2 hin
  subst hc
  have hl : d.length = (es.map List.length).sum := by
    rw [← length_tags d]; exact Dom.sum_length_of_perm hp
  obtain ⟨e', h1, h2, h3⟩ := ofTuples_ok (Dom.ownedOnce_of_perm hv.1 hp)
  rw [he] at h1; injection h1 with h1; subst h1
  let g : τ → I64 := fun q =>
    match get q e, get q d with
    | .ok x, .ok (b, _, s) => BitVec.ofInt 64 (Int.tdiv (x - b).toInt s.toInt) | _, _ => 0
  -- the quotient along one tag
  have key : ∀ q b n s x, get q d = .ok (b, n, s) → get q e = .ok x →
      sDiv (x - b) s = .ok (g q) ∧ (x.toNat : Int) = b.toNat + (g q).toInt * s.toInt ∧
        0 ≤ (g q).toInt ∧ (g q).toInt < n.toInt := by
    intro q b n s x h hx
    have := hin q (mem_tags_of_get h)
    rw [onGrid_ok h, idx_ok hx] at this
    obtain ⟨k, hk0, hk1, hk⟩ := this
    obtain ⟨v1, v2, v3, v4⟩ := svalid_get hv h
    have hks : 0 ≤ k * s.toInt := Int.mul_nonneg hk0 (by omega)
    have hks2 : k * s.toInt < n.toInt * s.toInt := Int.mul_lt_mul_of_pos_right hk1 (by omega)
    have hsub : (x - b).toInt = k * s.toInt := by
      rw [Dom.toInt_sub_of_le (by omega) (by omega)]; omega
    have hdiv : Int.tdiv (x - b).toInt s.toInt = k := by
      rw [hsub]; exact Int.mul_tdiv_cancel k (by omega)
    have hs0 : s ≠ 0 := by rintro rfl; simp at v2
    have hkr : Vect.InRange k := by
      have := toInt_range n; unfold Vect.InRange; omega
    have hg : g q = BitVec.ofInt 64 k := by simp only [g, hx, h, hdiv]
    have hgi : (g q).toInt = k := by rw [hg]; exact toInt_ofInt_of_range hkr
    rw [hgi]
    refine ⟨?_, hk, hk0, hk1⟩
    rw [sDiv, if_neg hs0, hdiv, Vect.signedRes_ok hkr, hg]
  have hm : (tags d).mapM (fun q => do
      let x ← Tup.take q es
      let x' ← Tup.select [q] x
      let b ← Tup.select [q] (front d)
      let v ← Elem.sub x' b
      let a ← Tup.get q v
      let s ← Tup.get q (strides d)
      let r ← sDiv a s
      pure [(q, r)]) = .ok ((tags d).map (fun q => [(q, g q)])) := by
    refine mapM_ok (g := fun q => [(q, g q)]) ?_
    intro q hq
    obtain ⟨⟨b, n, s⟩, hb⟩ := get_ok_iff_mem_tags.2 hq
    obtain ⟨l, x, r, rfl, hx, hl, hr⟩ := Dom.ownedOnce_of_perm hv.1 hp q hq
    obtain ⟨v, hxv⟩ := get_ok_iff_mem_tags.2 hx
    have hev : get q e = .ok v := by rw [h3 q hq x (by simp) hx, hxv]
    simp [take_ok hx hl hr, select_one hxv, select_one (get_front_ok hb), Elem.sub, TypeSeq.same,
      TypeSeq.contains, zipVals, get_strides_ok hb, (key q b n s v hb hev).1]
  refine ⟨(tags d).map (fun q => (q, g q)), ?_, by simp, ?_⟩
  · simp only [distanceFromFront, hl, decide_true, Res.guardIll_true, Res.ok_bind, c1,
      Res.guardAbort_true]
    rw [hm]
    simp only [Res.ok_bind]
    exact ofTuples_singletons hv.1 (fun _ h => h)
  · intro q hq
    obtain ⟨⟨b, n, s⟩, hb⟩ := get_ok_iff_mem_tags.2 hq
    obtain ⟨x, hx⟩ := get_ok_iff_mem_tags.2 (show q ∈ tags e by rw [h2]; exact hq)
    have := key q b n s x hb hx
    rw [idx_ok hx, first_ok hb, step_ok hb, count_ok hb, disp_ok (get_map_tags hq)]
    exact this.2

theorem back_ok (d : SDom τ) (hv : SValid d) :
    ∃ e, back d = .ok e ∧ tags e = tags d ∧
      ∀ q ∈ tags d, 1 ≤ count q d → (idx q e : Int) = first q d + (count q d - 1) * step q d := by
  let g : τ → U64 := fun q => match get q d with | .ok (b, n, s) => b + (n - 1) * s | _ => 0
  have e1 : (1 : I64).toInt = 1 := rfl
  have key : ∀ q b n s, get q d = .ok (b, n, s) → sSub n 1 = .ok (n - 1) ∧
      sMul (n - 1) s = .ok ((n - 1) * s) ∧ (n - 1).toInt = n.toInt - 1 ∧
      ((n - 1) * s).toInt = (n.toInt - 1) * s.toInt := by
    intro q b n s h
    obtain ⟨v1, v2, v3, v4⟩ := svalid_get hv h
    have hnr := toInt_range n
    have hsr := toInt_range s
    have hm : sSub n 1 = .ok (n - 1) := by
      rw [sSub, e1, Vect.signedRes_ok (by unfold Vect.InRange; omega), ← Vect.ofInt_sub_toInt, e1]
    have hmi : (n - 1).toInt = n.toInt - 1 := by
      rw [← Vect.ofInt_sub_toInt, e1]; exact toInt_ofInt_of_range (by omega)
    have hexp : (n.toInt - 1) * s.toInt = n.toInt * s.toInt - s.toInt := by ring
    have hnn : 0 ≤ n.toInt * s.toInt := Int.mul_nonneg (by omega) (by omega)
    have hr : Vect.InRange ((n - 1).toInt * s.toInt) := by
      rw [hmi]; unfold Vect.InRange; omega
    refine ⟨hm, ?_, hmi, ?_⟩
    · rw [sMul, Vect.signedRes_ok hr, ofInt_mul_toInt]
    · rw [toInt_mul_of_range hr, hmi]
  have h1 : (tags d).mapM (fun q => do
    let b ← Tup.select [q] (front d)
    let n ← Tup.get q (extents d)
    let s ← Tup.get q (strides d)
    let m ← sSub n 1
    let k ← sMul m s
    Elem.addInt b k) = .ok ((tags d).map (fun q => [(q, g q)])) := by
    refine mapM_ok (g := fun q => [(q, g q)]) ?_
    intro q hq
    obtain ⟨⟨b, n, s⟩, h⟩ := get_ok_iff_mem_tags.2 hq
    obtain ⟨k1, k2, _, _⟩ := key q b n s h
    simp only [select_one (get_front_ok h), get_extents_ok h, get_strides_ok h, k1, k2, Res.ok_bind,
      Elem.addInt, g, h]
  refine ⟨(tags d).map (fun q => (q, g q)), ?_, by simp, ?_⟩
  · simp only [back]
    rw [h1]
    simp only [Res.ok_bind]
    exact ofTuples_singletons hv.1 (fun _ h => h)
  · intro q hq hc
    obtain ⟨⟨b, n, s⟩, h⟩ := get_ok_iff_mem_tags.2 hq
    obtain ⟨_, _, _, k4⟩ := key q b n s h
    obtain ⟨v1, v2, v3, v4⟩ := svalid_get hv h
    rw [count_ok h] at hc ⊢
    rw [idx_ok (get_map_tags hq), first_ok h, step_ok h, ← k4]
    simp only [g, h]
    have hexp : (n.toInt - 1) * s.toInt = n.toInt * s.toInt - s.toInt := by ring
    have hnn : 0 ≤ (n.toInt - 1) * s.toInt := Int.mul_nonneg (by omega) (by omega)
    exact Dom.toNat_add_of_range (by omega) (by omega)

end SDom
end DDC
