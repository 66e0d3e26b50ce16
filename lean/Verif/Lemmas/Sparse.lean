import Verif.Model.Sparse
import Verif.Lemmas.DomainOps

set_option linter.unusedSectionVars false

namespace DDC

variable {τ : Type} [DecidableEq τ]

/-- Strictly increasing list of indices. -/
def Spec.Sorted (l : List U64) : Prop := l.Pairwise (fun x y => x.toNat < y.toNat)

namespace SpDom
open Tup Spec

theorem lowerBoundLoop_total (l : List U64) (v : U64) (first count : Nat) (h : first + count ≤ l.length) :
    ∃ p, lowerBoundLoop l v first count = .ok p ∧ first ≤ p ∧ p ≤ first + count := by
  induction count using Nat.strongRecOn generalizing first with
  | ind count ih =>
    rw [lowerBoundLoop]
    by_cases hc : 0 < count
    · rw [dif_pos hc]
      have hlt : first + count / 2 < l.length := by omega
      rw [List.getElem?_eq_getElem hlt]
      simp only
      split
      · obtain ⟨p, h1, h2, h3⟩ := ih (count - (count / 2 + 1)) (by omega) (first + count / 2 + 1) (by omega)
        exact ⟨p, h1, by omega, by omega⟩
      · obtain ⟨p, h1, h2, h3⟩ := ih (count / 2) (by omega) first (by omega)
        exact ⟨p, h1, by omega, by omega⟩
    · rw [dif_neg hc]
      exact ⟨first, rfl, by omega, by omega⟩

theorem sorted_lt {l : List U64} (hs : Sorted l) {i j : Nat} {x y : U64} (hij : i < j)
    (hi : l[i]? = some x) (hj : l[j]? = some y) : x.toNat < y.toNat := by
  obtain ⟨h1, rfl⟩ := List.getElem?_eq_some_iff.1 hi
  obtain ⟨h2, rfl⟩ := List.getElem?_eq_some_iff.1 hj
  exact (List.pairwise_iff_getElem.1 hs) i j h1 h2 hij

/-- Partition point found by the binary search in a sorted array. -/
theorem lowerBoundLoop_spec {l : List U64} (hs : Sorted l) (v : U64) (first count : Nat)
    (h : first + count ≤ l.length)
    (hlo : ∀ i x, i < first → l[i]? = some x → x.toNat < v.toNat)
    (hhi : ∀ i x, first + count ≤ i → l[i]? = some x → v.toNat ≤ x.toNat) :
    ∃ p, lowerBoundLoop l v first count = .ok p ∧ p ≤ l.length ∧
      (∀ i x, i < p → l[i]? = some x → x.toNat < v.toNat) ∧
      (∀ i x, p ≤ i → l[i]? = some x → v.toNat ≤ x.toNat) := by
  induction count using Nat.strongRecOn generalizing first with
  | ind count ih =>
    rw [lowerBoundLoop]
    by_cases hc : 0 < count
    · rw [dif_pos hc]
      have hlt : first + count / 2 < l.length := by omega
      have hm := List.getElem?_eq_getElem hlt
      rw [hm]
      simp only [BitVec.lt_def]
      split
      · rename_i hx
        refine ih (count - (count / 2 + 1)) (by omega) (first + count / 2 + 1) (by omega) ?_ ?_
        · intro i x hi hx'
          by_cases he : i = first + count / 2
          · subst he; rw [hm] at hx'; injection hx' with hx'; subst hx'; exact hx
          · have := sorted_lt hs (i := i) (j := first + count / 2) (by omega) hx' hm
            omega
        · intro i x hi hx'
          exact hhi i x (by omega) hx'
      · rename_i hx
        refine ih (count / 2) (by omega) first (by omega) hlo ?_
        intro i x hi hx'
        by_cases he : i = first + count / 2
        · subst he; rw [hm] at hx'; injection hx' with hx'; subst hx'; omega
        · have := sorted_lt hs (i := first + count / 2) (j := i) (by omega) hm hx'
          omega
    · rw [dif_neg hc]
      exact ⟨first, rfl, by omega, hlo, fun i x hi => hhi i x (by omega)⟩

theorem lowerBound_spec {l : List U64} (hs : Sorted l) (v : U64) :
    ∃ p, lowerBound l v = .ok p ∧ p ≤ l.length ∧
      (∀ i x, i < p → l[i]? = some x → x.toNat < v.toNat) ∧
      (∀ i x, p ≤ i → l[i]? = some x → v.toNat ≤ x.toNat) :=
  lowerBoundLoop_spec hs v 0 l.length (by omega) (fun i x hi => absurd hi (by omega))
    (fun i x hi hx => by
      have := (List.getElem?_eq_some_iff.1 hx).1; omega)

theorem binarySearch_spec {l : List U64} (hs : Sorted l) (v : U64) :
    ∃ c, binarySearch l v = .ok c ∧ (c = true ↔ v ∈ l) := by
  obtain ⟨p, h1, h2, h3, h4⟩ := lowerBound_spec hs v
  by_cases hp : p = l.length
  · refine ⟨false, by simp [binarySearch, h1, hp], ?_⟩
    simp only [Bool.false_eq_true, false_iff]
    intro hv
    obtain ⟨i, hi⟩ := List.mem_iff_getElem?.1 hv
    have := (List.getElem?_eq_some_iff.1 hi).1
    have := h3 i v (by omega) hi
    omega
  · have hlt : p < l.length := by omega
    have hm := List.getElem?_eq_getElem hlt
    refine ⟨!decide (v < l[p]), by simp [binarySearch, h1, hp, hm], ?_⟩
    have hge := h4 p _ (Nat.le_refl _) hm
    simp only [Bool.not_eq_true', decide_eq_false_iff_not, BitVec.lt_def]
    constructor
    · intro h
      have : v = l[p] := BitVec.eq_of_toNat_eq (by omega)
      rw [this]; exact List.getElem_mem hlt
    · intro hv
      obtain ⟨i, hi⟩ := List.mem_iff_getElem?.1 hv
      by_cases hip : i < p
      · have := h3 i v hip hi; omega
      · by_cases he : i = p
        · subst he; rw [hm] at hi; injection hi with hi; rw [hi]; omega
        · have := sorted_lt hs (i := p) (j := i) (by omega) hm hi
          omega

/-- The position returned by the search is the position of the value. -/
theorem lowerBound_eq {l : List U64} (hs : Sorted l) {v : U64} {i : Nat} (hi : l[i]? = some v) :
    lowerBound l v = .ok i := by
  obtain ⟨p, h1, h2, h3, h4⟩ := lowerBound_spec hs v
  rw [h1]; congr 1
  by_contra hne
  rcases Nat.lt_or_gt_of_ne hne with h | h
  · have hlt : p < l.length := by have := (List.getElem?_eq_some_iff.1 hi).1; omega
    have hm := List.getElem?_eq_getElem hlt
    have := h4 p _ (Nat.le_refl _) hm
    have := sorted_lt hs h hm hi
    omega
  · have := h3 i v h hi; omega

/-- Every axis of the domain is strictly increasing, the tags are distinct and the
arrays have less than `2^63` entries. -/
def _root_.DDC.Spec.SpValid (d : SpDom τ) : Prop :=
  (tags d).Nodup ∧ ∀ q l, get q d = .ok l → Sorted l ∧ l.length < 2 ^ 63

/-- The point `e` belongs to the product of the axes. -/
def _root_.DDC.Spec.InSparse (d : SpDom τ) (e : Elem τ) : Prop :=
  ∀ q l, get q d = .ok l → ∃ x, get q e = .ok x ∧ x ∈ l

theorem spvalid_tail {p : τ × List U64} {d : SpDom τ} (hv : SpValid (p :: d)) : SpValid d := by
  obtain ⟨t, l⟩ := p
  have hnd := hv.1
  simp only [tags_cons, List.nodup_cons] at hnd
  refine ⟨hnd.2, ?_⟩
  intro q l' h
  have hne : q ≠ t := by rintro rfl; exact hnd.1 (mem_tags_of_get h)
  exact hv.2 q l' (by simpa [hne] using h)

theorem containsLoop_ok {e : Elem τ} {d : SpDom τ} (ht : tags e = tags d) (hv : SpValid d) :
    ∃ c, containsLoop (vals e) (vals d) = .ok c ∧ (c = true ↔ InSparse d e) := by
  induction d generalizing e with
  | nil => exact ⟨true, by cases e with | nil => rfl | cons p e => simp at ht, by simp [InSparse]⟩
  | cons p d ih =>
    cases e with
    | nil => simp at ht
    | cons r e =>
      obtain ⟨t, l⟩ := p
      obtain ⟨t', x⟩ := r
      simp only [tags_cons, List.cons.injEq] at ht
      obtain ⟨rfl, ht⟩ := ht
      have hnd := hv.1
      simp only [tags_cons, List.nodup_cons] at hnd
      obtain ⟨c, h1, h2⟩ := ih ht (spvalid_tail hv)
      obtain ⟨c0, g1, g2⟩ := binarySearch_spec (hv.2 t' l (by simp)).1 x
      have e1 : InSparse ((t', l) :: d) ((t', x) :: e) ↔ (x ∈ l ∧ InSparse d e) := by
        constructor
        · intro h
          refine ⟨?_, ?_⟩
          · obtain ⟨y, hy, hyl⟩ := h t' l (by simp)
            simp at hy; subst hy; exact hyl
          · intro q l' hq
            have hne : q ≠ t' := by rintro rfl; exact hnd.1 (mem_tags_of_get hq)
            simpa [hne] using h q l' (by simpa [hne] using hq)
        · rintro ⟨ha, hb⟩ q l' hq
          by_cases hqt : q = t'
          · subst hqt
            simp at hq; subst hq
            exact ⟨x, by simp, ha⟩
          · simp only [get_cons, hqt, if_false] at hq ⊢
            exact hb q l' hq
      rw [e1, ← g2, ← h2]
      simp only [vals, List.map_cons, containsLoop, g1, Res.ok_bind]
      cases c0 with
      | false => exact ⟨false, by simp⟩
      | true => exact ⟨c, by simpa [vals] using h1, by simp⟩

theorem inSparse_congr {d : SpDom τ} {e e' : Elem τ} (h : ∀ q ∈ tags d, get q e = get q e') :
    InSparse d e ↔ InSparse d e' := by
  refine forall_congr' fun q => forall_congr' fun l => forall_congr' fun hq => ?_
  rw [h q (mem_tags_of_get hq)]

theorem contains_ok {d : SpDom τ} (hv : SpValid d) {es : List (Elem τ)}
    (hp : (es.flatMap tags).Perm (tags d)) {e : Elem τ} (he : ofTuples (tags d) es = .ok e) :
    ∃ c, contains d es = .ok c ∧ (c = true ↔ InSparse d e) := by
  have ht : tags e = tags d := by
    obtain ⟨r, h1, h2, _⟩ := ofTuples_ok (ofTuples_inv he)
    rw [he] at h1; injection h1 with h1; rw [h1, h2]
  have hl : d.length = (es.map List.length).sum := by
    rw [← length_tags d]; exact Dom.sum_length_of_perm hp
  obtain ⟨c, h1, h2⟩ := containsLoop_ok ht hv
  exact ⟨c, by simp [contains, hl, he, h1], h2⟩

theorem contains_one {d : SpDom τ} (hv : SpValid d) {e : Elem τ}
    (ht : SameTags e d) : ∃ c, contains d [e] = .ok c ∧ (c = true ↔ InSparse d e) := by
  obtain ⟨r, h1, h2, h3⟩ := select_ok (qs := tags d) (x := e) (fun q hq => ht.mem_iff.2 hq)
  obtain ⟨c, g1, g2⟩ := contains_ok hv (es := [e]) (by simpa [SameTags] using ht) h1
  exact ⟨c, g1, g2.trans (inSparse_congr h3)⟩

theorem read_some {l : List U64} {i : Nat} {x : U64} (h : l[i]? = some x) : read l i = .ok x := by
  simp [read, h]

/-- `operator()` on a valid position. -/
theorem at_ok {d : SpDom τ} (hnd : (tags d).Nodup) {v : Vect τ} (ht : tags v = tags d)
    (hr : ∀ q l, get q d = .ok l → ∃ x : I64, get q v = .ok x ∧ x.toNat < l.length) :
    ∃ e, at' d v = .ok e ∧ tags e = tags d ∧
      ∀ q l x, get q d = .ok l → get q v = .ok x → ∃ y, get q e = .ok y ∧ l[x.toNat]? = some y := by
  obtain ⟨e, h1, h2, h3⟩ := zipVals_ok (f := fun (l : List U64) (x : I64) => read l x.toNat) (x := d) (y := v)
    (by
      intro q l hq
      obtain ⟨x, hx, hlt⟩ := hr q l (get_of_mem hnd hq)
      exact ⟨x, l[x.toNat], hx, read_some (List.getElem?_eq_getElem hlt)⟩)
  refine ⟨e, by simp [at', ht, h1], h2, ?_⟩
  intro q l x hl hx
  obtain ⟨x', hx', hlt⟩ := hr q l hl
  rw [hx] at hx'; injection hx' with hx'; subst hx'
  refine ⟨l[x.toNat], ?_, List.getElem?_eq_getElem hlt⟩
  rw [h3 q l x hl hx, read_some (List.getElem?_eq_getElem hlt)]

/-- An out-of-range position reads outside of the array. -/
theorem at_ub {d : SpDom τ} {v : Vect τ} (ht : tags v = tags d)
    {q : τ} {l : List U64} {x : I64} (hl : get q d = .ok l) (hx : get q v = .ok x)
    (hr : l.length ≤ x.toNat) : ∀ e, at' d v ≠ .ok e := by
  intro e he
  simp only [at', ht, decide_true, Res.guardIll_true, Res.ok_bind] at he
  have key : ∀ (d : SpDom τ), get q d = .ok l → ∀ e, zipVals (fun (l : List U64) (x : I64) => read l x.toNat) d v ≠ .ok e := by
    intro d
    induction d with
    | nil => intro h; simp at h
    | cons p d ih =>
      obtain ⟨t, l'⟩ := p
      intro h e he
      simp only [zipVals, Res.bind_eq_ok] at he
      obtain ⟨w, hw, z, hz, l'', hl'', _⟩ := he
      rw [get_cons] at h
      split at h
      · rename_i heq
        injection h with h; subst h; subst heq
        rw [hx] at hw; injection hw with hw; subst hw
        simp only [read, List.getElem?_eq_none hr] at hz
        cases hz
      · exact ih h _ hl''
  exact key d hl e he

theorem distance_ok {d : SpDom τ} (hv : SpValid d) {es : List (Elem τ)}
    (hp : (es.flatMap tags).Perm (tags d)) {e : Elem τ} (he : ofTuples (tags d) es = .ok e)
    (hin : InSparse d e) :
    ∃ v, distanceFromFront d es = .ok v ∧ tags v = tags d ∧
      ∀ q l, get q d = .ok l → ∃ (x : I64) (y : U64), get q v = .ok x ∧ get q e = .ok y ∧
        x.toInt = x.toNat ∧ l[x.toNat]? = some y := by
  obtain ⟨c, c1, c2⟩ := contains_ok hv hp he
  have hc : c = true := c2.2 hin
  subst hc
  have hl : d.length = (es.map List.length).sum := by
    rw [← length_tags d]; exact Dom.sum_length_of_perm hp
  obtain ⟨e', h1, h2, h3⟩ := ofTuples_ok (Dom.ownedOnce_of_perm hv.1 hp)
  rw [he] at h1; injection h1 with h1; subst h1
  let g : τ → I64 := fun q =>
    match get q e, get q d with
    | .ok x, .ok l => match lowerBound l x with | .ok p => BitVec.ofNat 64 p | _ => 0
    | _, _ => 0
  have key : ∀ q l x, get q d = .ok l → get q e = .ok x → ∃ p, lowerBound l x = .ok p ∧
      p < l.length ∧ l[p]? = some x ∧ g q = BitVec.ofNat 64 p := by
    intro q l x hl hx
    obtain ⟨x', hx', hmem⟩ := hin q l hl
    rw [hx] at hx'; injection hx' with hx'; subst hx'
    obtain ⟨i, hi⟩ := List.mem_iff_getElem?.1 hmem
    have := lowerBound_eq (hv.2 q l hl).1 hi
    refine ⟨i, this, (List.getElem?_eq_some_iff.1 hi).1, hi, ?_⟩
    simp only [g, hx, hl, this]
  have hm : (tags d).mapM (fun q => do
      let x ← Tup.take q es
      let u ← Tup.get q x
      let v ← Tup.get q d
      let p ← lowerBound v u
      pure [(q, (BitVec.ofNat 64 p : I64))]) = .ok ((tags d).map (fun q => [(q, g q)])) := by
    refine mapM_ok (g := fun q => [(q, g q)]) ?_
    intro q hq
    obtain ⟨l, hb⟩ := get_ok_iff_mem_tags.2 hq
    obtain ⟨l', x, r, rfl, hx, hl', hr⟩ := Dom.ownedOnce_of_perm hv.1 hp q hq
    obtain ⟨v, hxv⟩ := get_ok_iff_mem_tags.2 hx
    have hev : get q e = .ok v := by rw [h3 q hq x (by simp) hx, hxv]
    obtain ⟨p, p1, p2, p3, p4⟩ := key q l v hb hev
    simp [take_ok hx hl' hr, hxv, hb, p1, p4]
  refine ⟨(tags d).map (fun q => (q, g q)), ?_, by simp, ?_⟩
  · simp only [distanceFromFront, hl, decide_true, Res.guardIll_true, Res.ok_bind, c1,
      Res.guardAbort_true]
    rw [hm]
    simp only [Res.ok_bind]
    exact ofTuples_singletons hv.1 (fun _ h => h)
  · intro q l hb
    have hq := mem_tags_of_get hb
    obtain ⟨x, hx⟩ := get_ok_iff_mem_tags.2 (show q ∈ tags e by rw [h2]; exact hq)
    obtain ⟨p, p1, p2, p3, p4⟩ := key q l x hb hx
    have hlen := (hv.2 q l hb).2
    have e1 : (BitVec.ofNat 64 p : I64).toNat = p := by rw [BitVec.toNat_ofNat]; omega
    refine ⟨BitVec.ofNat 64 p, x, ?_, hx, ?_, ?_⟩
    · rw [get_map_tags hq, p4]
    · rw [BitVec.toInt_eq_toNat_cond, e1]; split <;> omega
    · rw [e1]; exact p3

end SpDom
end DDC
