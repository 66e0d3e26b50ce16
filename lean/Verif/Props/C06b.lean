import Verif.Lemmas.StridedOps

/-!
# C06  take/remove first/last split a domain into disjoint covering pieces (strided domains)
-/

namespace DDC.Props

open Tup SDom Spec

variable {τ : Type} [DecidableEq τ]

/-- Specification: along tag `q`, the domain `r` consists of the terms number
`i, ..., j - 1` of the progression of `d`. -/
def SPiece (q : τ) (d r : SDom τ) (i j : Int) : Prop :=
  ∀ x : Int, OnGrid q r x ↔ ∃ k, i ≤ k ∧ k < j ∧ x = first q d + k * step q d

/-- An admissible count: between zero and the extent along each dimension. -/
def SCountOk (d : SDom τ) (n : Vect τ) : Prop :=
  tags n = tags d ∧ ∀ q ∈ tags d, 0 ≤ disp q n ∧ disp q n ≤ count q d

private theorem spiece_intro {q : τ} {d r : SDom τ} {i j : Int}
    (h1 : (first q r : Int) = first q d + i * step q d)
    (h2 : count q r = j - i) (h3 : step q r = step q d) : SPiece q d r i j := by
  intro x
  simp only [OnGrid, h1, h2, h3]
  constructor
  · rintro ⟨k, a, b, rfl⟩
    exact ⟨k + i, by omega, by omega, by ring⟩
  · rintro ⟨k, a, b, rfl⟩
    exact ⟨k - i, by omega, by omega, by ring⟩

/-- Data of a sub-domain described by its first position and count. -/
private theorem svalid_sub {d r : SDom τ} (hd : SValid d) (ht : tags r = tags d) {i j : τ → Int}
    (h : ∀ q ∈ tags d, 0 ≤ i q ∧ i q ≤ j q ∧ j q ≤ count q d ∧
      (first q r : Int) = first q d + i q * step q d ∧ count q r = j q - i q ∧ step q r = step q d) :
    SValid r := by
  refine ⟨ht ▸ hd.1, ?_⟩
  intro q hq
  rw [ht] at hq
  obtain ⟨h0, h1, h2, h3, h4, h5⟩ := h q hq
  obtain ⟨v1, v2, v3, v4⟩ := hd.2 q hq
  rw [h3, h4, h5]
  have e1 : (j q - i q) * step q d = j q * step q d - i q * step q d := by ring
  have e2 : j q * step q d ≤ count q d * step q d := Int.mul_le_mul_of_nonneg_right h2 (by omega)
  have e3 : 0 ≤ i q * step q d := Int.mul_nonneg h0 (by omega)
  exact ⟨by omega, v2, by omega, by omega⟩

private theorem front_prod {d : SDom τ} (hd : SValid d) {n : Vect τ} (hn : SCountOk d n) :
    ∃ p f, SDom.prod n (SDom.strides d) = .ok p ∧ Elem.addVec (SDom.front d) p = .ok f ∧ tags f = tags d ∧
      ∀ q ∈ tags d, (idx q f : Int) = first q d + disp q n * step q d := by
  have hb : ∀ q b m s x, get q d = .ok (b, m, s) → get q n = .ok x →
      0 ≤ x.toInt * s.toInt ∧ x.toInt * s.toInt ≤ m.toInt * s.toInt := by
    intro q b m s x h hx
    have h1 := hn.2 q (mem_tags_of_get h)
    rw [disp_ok hx, count_ok h] at h1
    obtain ⟨_, h3, _, _⟩ := svalid_get hd h
    exact ⟨Int.mul_nonneg h1.1 (by omega), Int.mul_le_mul_of_nonneg_right h1.2 (by omega)⟩
  have hrng : ∀ q a b, get q n = .ok a → get q (SDom.strides d) = .ok b → Vect.InRange (a.toInt * b.toInt) := by
    intro q a b ha hb'
    have hq : q ∈ tags d := by rw [← hn.1]; exact mem_tags_of_get ha
    obtain ⟨⟨c, m, s⟩, h⟩ := get_ok_iff_mem_tags.2 hq
    rw [get_strides_ok h] at hb'; injection hb' with hb'; subst hb'
    have := hb q c m s a h ha
    have := svalid_get hd h
    unfold Vect.InRange; omega
  obtain ⟨p, p1, p2, p3⟩ := prod_ok (v := n) (w := SDom.strides d) (by rw [hn.1, tags_strides]) hrng
    (by rw [hn.1]; exact hd.1)
  obtain ⟨f, h1, h2, _, h4⟩ := Elem.addVec_spec (e := SDom.front d) (v := p)
    (by rw [tags_front]; exact hd.1) (by rw [p2, hn.1]; exact hd.1)
    (by intro q hq; rwa [tags_front, ← hn.1, ← p2])
  refine ⟨p, f, p1, h1, by rw [h2, tags_front], ?_⟩
  intro q hq
  obtain ⟨⟨b, m, s⟩, h⟩ := get_ok_iff_mem_tags.2 hq
  obtain ⟨x, hx⟩ := get_ok_iff_mem_tags.2 (show q ∈ tags n by rw [hn.1]; exact hq)
  have hp := p3 q x s hx (get_strides_ok h)
  rw [idx_ok (h4 q b _ (get_front_ok h) hp), first_ok h, disp_ok hx, step_ok h]
  have hm := toInt_mul_of_range (hrng q x s hx (get_strides_ok h))
  have := hb q b m s x h hx
  have := svalid_get hd h
  rw [← hm]
  exact Dom.toNat_add_of_range (by omega) (by omega)

private theorem ext_sub {d : SDom τ} (hd : SValid d) {n : Vect τ} (hn : SCountOk d n) :
    ∃ k, Vect.sub (SDom.extents d) n = .ok k ∧ tags k = tags d ∧
      ∀ q ∈ tags d, disp q k = count q d - disp q n := by
  have hr : ∀ q a b, get q (SDom.extents d) = .ok a → get q n = .ok b → Vect.InRange (a.toInt - b.toInt) := by
    intro q a b ha hb
    have hq : q ∈ tags d := by rw [← tags_extents]; exact mem_tags_of_get ha
    obtain ⟨⟨c, m, s⟩, h⟩ := get_ok_iff_mem_tags.2 hq
    rw [get_extents_ok h] at ha; injection ha with ha; subst ha
    have h1 := hn.2 q hq
    rw [disp_ok hb, count_ok h] at h1
    have := toInt_range m
    unfold Vect.InRange; omega
  obtain ⟨k, k1, k2, k3⟩ := Vect.sub_same (v := SDom.extents d) (w := n)
    (by rw [tags_extents]; exact hd.1) (by rw [tags_extents, hn.1]) hr
  refine ⟨k, k1, by rw [k2, tags_extents], ?_⟩
  intro q hq
  obtain ⟨⟨b, m, s⟩, h⟩ := get_ok_iff_mem_tags.2 hq
  obtain ⟨x, hx⟩ := get_ok_iff_mem_tags.2 (show q ∈ tags n by rw [hn.1]; exact hq)
  rw [disp_ok (k3 q m x (get_extents_ok h) hx), count_ok h, disp_ok hx, ← Vect.ofInt_sub_toInt]
  exact toInt_ofInt_of_range (hr q m x (get_extents_ok h) hx)

private theorem build {d : SDom τ} (hd : SValid d) {f : Elem τ} {k : Vect τ} (hf : tags f = tags d)
    (hk : tags k = tags d) :
    ∃ r, SDom.ofSize f k (SDom.strides d) = .ok r ∧ tags r = tags d ∧
      ∀ q ∈ tags d, first q r = idx q f ∧ count q r = disp q k ∧ step q r = step q d := by
  obtain ⟨r, h1, h2, h3⟩ := SDom.ofSize_ok (b := f) (n := k) (s := SDom.strides d)
    (by rw [hf]; exact hd.1) (by rw [hf, hk]) (by rw [hf, tags_strides])
  refine ⟨r, h1, by rw [h2, hf], ?_⟩
  intro q hq
  obtain ⟨⟨b, m, s⟩, h⟩ := get_ok_iff_mem_tags.2 hq
  obtain ⟨x, hx⟩ := get_ok_iff_mem_tags.2 (show q ∈ tags f by rw [hf]; exact hq)
  obtain ⟨y, hy⟩ := get_ok_iff_mem_tags.2 (show q ∈ tags k by rw [hk]; exact hq)
  have hr := h3 q x y s hx hy (get_strides_ok h)
  rw [first_ok hr, count_ok hr, step_ok hr, idx_ok hx, disp_ok hy, step_ok h]
  exact ⟨rfl, rfl, rfl⟩

private theorem front_idx {d : SDom τ} {q : τ} (hq : q ∈ tags d) : idx q (SDom.front d) = first q d := by
  obtain ⟨⟨b, m, s⟩, h⟩ := get_ok_iff_mem_tags.2 hq
  rw [idx_ok (get_front_ok h), first_ok h]

/-- `take_first(n)` keeps the first `n` points along every dimension. -/
theorem C06_strided_take_first (d : SDom τ) (hd : SValid d) (n : Vect τ) (hn : SCountOk d n) :
    ∃ r, SDom.takeFirst d n = .ok r ∧ SValid r ∧ tags r = tags d ∧
      ∀ q ∈ tags d, SPiece q d r 0 (disp q n) ∧ count q r = disp q n := by
  obtain ⟨r, h1, h2, h3⟩ := build hd (tags_front d) hn.1
  refine ⟨r, h1, svalid_sub hd h2 (i := fun _ => 0) (j := fun q => disp q n) ?_, h2, ?_⟩
  · intro q hq
    have := hn.2 q hq
    obtain ⟨a, b, c⟩ := h3 q hq
    exact ⟨by omega, by omega, by omega, by rw [a, front_idx hq]; omega, by rw [b]; omega, c⟩
  · intro q hq
    obtain ⟨a, b, c⟩ := h3 q hq
    exact ⟨spiece_intro (by rw [a, front_idx hq]; omega) (by rw [b]; omega) c, b⟩

/-- `take_last(n)` keeps the last `n` points along every dimension. -/
theorem C06_strided_take_last (d : SDom τ) (hd : SValid d) (n : Vect τ) (hn : SCountOk d n) :
    ∃ r, SDom.takeLast d n = .ok r ∧ SValid r ∧ tags r = tags d ∧
      ∀ q ∈ tags d, SPiece q d r (count q d - disp q n) (count q d) ∧ count q r = disp q n := by
  obtain ⟨k, k1, k2, k3⟩ := ext_sub hd hn
  obtain ⟨p, f, p1, f1, f2, f3⟩ := front_prod hd (n := k) ⟨k2, by
    intro q hq; have := hn.2 q hq; rw [k3 q hq]; omega⟩
  obtain ⟨r, h1, h2, h3⟩ := build hd f2 hn.1
  refine ⟨r, by simp [SDom.takeLast, k1, p1, f1, h1],
    svalid_sub hd h2 (i := fun q => count q d - disp q n) (j := fun q => count q d) ?_, h2, ?_⟩
  · intro q hq
    have := hn.2 q hq
    obtain ⟨a, b, c⟩ := h3 q hq
    exact ⟨by omega, by omega, by omega, by rw [a, f3 q hq, k3 q hq], by rw [b]; omega, c⟩
  · intro q hq
    obtain ⟨a, b, c⟩ := h3 q hq
    exact ⟨spiece_intro (by rw [a, f3 q hq, k3 q hq]) (by rw [b]; omega) c, b⟩

/-- `remove_first(n)` drops the first `n` points along every dimension. -/
theorem C06_strided_remove_first (d : SDom τ) (hd : SValid d) (n : Vect τ) (hn : SCountOk d n) :
    ∃ r, SDom.removeFirst d n = .ok r ∧ SValid r ∧ tags r = tags d ∧
      ∀ q ∈ tags d, SPiece q d r (disp q n) (count q d) ∧ count q r = count q d - disp q n := by
  obtain ⟨k, k1, k2, k3⟩ := ext_sub hd hn
  obtain ⟨p, f, p1, f1, f2, f3⟩ := front_prod hd hn
  obtain ⟨r, h1, h2, h3⟩ := build hd f2 k2
  refine ⟨r, by simp [SDom.removeFirst, k1, p1, f1, h1],
    svalid_sub hd h2 (i := fun q => disp q n) (j := fun q => count q d) ?_, h2, ?_⟩
  · intro q hq
    have := hn.2 q hq
    obtain ⟨a, b, c⟩ := h3 q hq
    exact ⟨by omega, by omega, by omega, by rw [a, f3 q hq], by rw [b, k3 q hq], c⟩
  · intro q hq
    obtain ⟨a, b, c⟩ := h3 q hq
    exact ⟨spiece_intro (by rw [a, f3 q hq]) (by rw [b, k3 q hq]) c, by rw [b, k3 q hq]⟩

/-- `remove_last(n)` drops the last `n` points along every dimension. -/
theorem C06_strided_remove_last (d : SDom τ) (hd : SValid d) (n : Vect τ) (hn : SCountOk d n) :
    ∃ r, SDom.removeLast d n = .ok r ∧ SValid r ∧ tags r = tags d ∧
      ∀ q ∈ tags d, SPiece q d r 0 (count q d - disp q n) ∧ count q r = count q d - disp q n := by
  obtain ⟨k, k1, k2, k3⟩ := ext_sub hd hn
  obtain ⟨r, h1, h2, h3⟩ := build hd (tags_front d) k2
  refine ⟨r, by simp [SDom.removeLast, k1, h1],
    svalid_sub hd h2 (i := fun _ => 0) (j := fun q => count q d - disp q n) ?_, h2, ?_⟩
  · intro q hq
    have := hn.2 q hq
    obtain ⟨a, b, c⟩ := h3 q hq
    exact ⟨by omega, by omega, by omega, by rw [a, front_idx hq]; omega, by rw [b, k3 q hq]; omega, c⟩
  · intro q hq
    obtain ⟨a, b, c⟩ := h3 q hq
    exact ⟨spiece_intro (by rw [a, front_idx hq]; omega) (by rw [b, k3 q hq]; omega) c, by rw [b, k3 q hq]⟩

/-- `remove(n1, n2)` drops the first `n1` and the last `n2` points. -/
theorem C06_strided_remove (d : SDom τ) (hd : SValid d) (n1 n2 : Vect τ) (hn1 : tags n1 = tags d)
    (hn2 : tags n2 = tags d)
    (hn : ∀ q ∈ tags d, 0 ≤ disp q n1 ∧ 0 ≤ disp q n2 ∧ disp q n1 + disp q n2 ≤ count q d) :
    ∃ r, SDom.remove d n1 n2 = .ok r ∧ SValid r ∧ tags r = tags d ∧
      ∀ q ∈ tags d, SPiece q d r (disp q n1) (count q d - disp q n2) ∧
        count q r = count q d - disp q n1 - disp q n2 := by
  have hc1 : SCountOk d n1 := ⟨hn1, by intro q hq; have := hn q hq; omega⟩
  obtain ⟨k, k1, k2, k3⟩ := ext_sub hd hc1
  obtain ⟨p, f, p1, f1, f2, f3⟩ := front_prod hd hc1
  have hr : ∀ q a b, get q k = .ok a → get q n2 = .ok b → Vect.InRange (a.toInt - b.toInt) := by
    intro q a b ha hb
    have hq : q ∈ tags d := by rw [← k2]; exact mem_tags_of_get ha
    have e1 := k3 q hq
    rw [disp_ok ha] at e1
    have h1 := hn q hq
    rw [disp_ok hb] at h1
    have := toInt_range a
    unfold Vect.InRange; omega
  obtain ⟨k', j1, j2, j3⟩ := Vect.sub_same (v := k) (w := n2) (by rw [k2]; exact hd.1) (by rw [k2, hn2]) hr
  have j4 : ∀ q ∈ tags d, disp q k' = count q d - disp q n1 - disp q n2 := by
    intro q hq
    obtain ⟨a, ha⟩ := get_ok_iff_mem_tags.2 (show q ∈ tags k by rw [k2]; exact hq)
    obtain ⟨b, hb⟩ := get_ok_iff_mem_tags.2 (show q ∈ tags n2 by rw [hn2]; exact hq)
    rw [← k3 q hq, disp_ok (j3 q a b ha hb), disp_ok ha, disp_ok hb, ← Vect.ofInt_sub_toInt]
    exact toInt_ofInt_of_range (hr q a b ha hb)
  obtain ⟨r, h1, h2, h3⟩ := build hd f2 (k := k') (by rw [j2, k2])
  refine ⟨r, by simp [SDom.remove, k1, j1, p1, f1, h1],
    svalid_sub hd h2 (i := fun q => disp q n1) (j := fun q => count q d - disp q n2) ?_, h2, ?_⟩
  · intro q hq
    have := hn q hq
    obtain ⟨a, b, c⟩ := h3 q hq
    exact ⟨by omega, by omega, by omega, by rw [a, f3 q hq], by rw [b, j4 q hq]; omega, c⟩
  · intro q hq
    obtain ⟨a, b, c⟩ := h3 q hq
    exact ⟨spiece_intro (by rw [a, f3 q hq]) (by rw [b, j4 q hq]; omega) c, by rw [b, j4 q hq]⟩

/-- Along every dimension, `take_first(n)`/`remove_first(n)` and
`remove_last(n)`/`take_last(n)` are partitions of the points. -/
theorem C06_strided_partition (d : SDom τ) (hd : SValid d) (n : Vect τ) (hn : SCountOk d n) :
    ∃ tf rf tl rl, SDom.takeFirst d n = .ok tf ∧ SDom.removeFirst d n = .ok rf ∧
      SDom.takeLast d n = .ok tl ∧ SDom.removeLast d n = .ok rl ∧
      ∀ q ∈ tags d, ∀ x : Int,
        (OnGrid q d x ↔ (OnGrid q tf x ∨ OnGrid q rf x)) ∧ ¬ (OnGrid q tf x ∧ OnGrid q rf x) ∧
        (OnGrid q d x ↔ (OnGrid q rl x ∨ OnGrid q tl x)) ∧ ¬ (OnGrid q rl x ∧ OnGrid q tl x) ∧
        count q tf + count q rf = count q d ∧ count q rl + count q tl = count q d := by
  obtain ⟨tf, a1, _, _, a4⟩ := C06_strided_take_first d hd n hn
  obtain ⟨rf, b1, _, _, b4⟩ := C06_strided_remove_first d hd n hn
  obtain ⟨tl, c1, _, _, c4⟩ := C06_strided_take_last d hd n hn
  obtain ⟨rl, d1, _, _, d4⟩ := C06_strided_remove_last d hd n hn
  refine ⟨tf, rf, tl, rl, a1, b1, c1, d1, ?_⟩
  intro q hq x
  have hn1 := hn.2 q hq
  obtain ⟨_, v2, _, _⟩ := hd.2 q hq
  rw [(a4 q hq).1 x, (b4 q hq).1 x, (c4 q hq).1 x, (d4 q hq).1 x]
  have inj : ∀ k k' : Int, (first q d : Int) + k * step q d = first q d + k' * step q d → k = k' := by
    intro k k' h
    exact Int.eq_of_mul_eq_mul_right (a := step q d) (by omega) (by omega)
  refine ⟨?_, ?_, ?_, ?_, by rw [(a4 q hq).2, (b4 q hq).2]; omega, by rw [(c4 q hq).2, (d4 q hq).2]; omega⟩
  · constructor
    · rintro ⟨k, h0, h1, h2⟩
      by_cases hk : k < disp q n
      · exact .inl ⟨k, by omega, hk, h2⟩
      · exact .inr ⟨k, by omega, h1, h2⟩
    · rintro (⟨k, h0, h1, h2⟩ | ⟨k, h0, h1, h2⟩)
      · exact ⟨k, by omega, by omega, h2⟩
      · exact ⟨k, by omega, by omega, h2⟩
  · rintro ⟨⟨k, h0, h1, h2⟩, ⟨k', h0', h1', h2'⟩⟩
    have := inj k k' (by omega)
    omega
  · constructor
    · rintro ⟨k, h0, h1, h2⟩
      by_cases hk : k < count q d - disp q n
      · exact .inl ⟨k, by omega, hk, h2⟩
      · exact .inr ⟨k, by omega, h1, h2⟩
    · rintro (⟨k, h0, h1, h2⟩ | ⟨k, h0, h1, h2⟩)
      · exact ⟨k, by omega, by omega, h2⟩
      · exact ⟨k, by omega, by omega, h2⟩
  · rintro ⟨⟨k, h0, h1, h2⟩, ⟨k', h0', h1', h2'⟩⟩
    have := inj k k' (by omega)
    omega

/-! Non-vacuity: an interior split with stride 5. -/
example : SDom.takeLast ([('x', (3, 4, 5))] : SDom Char) [('x', 3)] = .ok [('x', (8, 3, 5))] ∧
    SDom.removeFirst ([('x', (3, 4, 5))] : SDom Char) [('x', 1)] = .ok [('x', (8, 3, 5))] ∧
    SDom.remove ([('x', (3, 4, 5))] : SDom Char) [('x', 1)] [('x', 1)] = .ok [('x', (8, 2, 5))] :=
  ⟨rfl, rfl, rfl⟩
example : SValid ([('x', (3, 4, 5))] : SDom Char) ∧ SCountOk ([('x', (3, 4, 5))] : SDom Char) [('x', 3)] := by
  refine ⟨⟨by decide, ?_⟩, rfl, ?_⟩ <;>
  · intro q hq
    simp only [tags, List.map_cons, List.map_nil, List.mem_cons, List.not_mem_nil, or_false] at hq
    subst hq; decide

end DDC.Props
