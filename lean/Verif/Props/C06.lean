import Verif.Lemmas.DomainOps

/-!
# C06  take/remove first/last split a domain into disjoint covering pieces
-/

namespace DDC.Props

open Tup Dom Spec

variable {τ : Type} [DecidableEq τ]

/-- Specification: along tag `q`, the domain `r` is exactly the indices
`[lo q d + i, lo q d + j)`. -/
def Piece (q : τ) (d r : Dom τ) (i j : Int) : Prop :=
  ∀ k : Int, ((lo q r : Int) ≤ k ∧ k < hi q r) ↔ (lo q d + i ≤ k ∧ k < lo q d + j)

/-- An admissible count: between zero and the extent along each dimension. -/
def CountOk (d : Dom τ) (n : Vect τ) : Prop :=
  tags n = tags d ∧ ∀ q ∈ tags d, 0 ≤ disp q n ∧ disp q n ≤ len q d

private theorem piece_intro {q : τ} {d r : Dom τ} {i j : Int} (h1 : (lo q r : Int) = lo q d + i)
    (h2 : (hi q r : Int) = lo q d + j) : Piece q d r i j := by
  intro k; rw [h1, h2]

/-- `take_first(n)` keeps the first `n` indices along every dimension. -/
theorem C06_take_first (d : Dom τ) (hd : Valid d) (n : Vect τ) (hn : CountOk d n) :
    ∃ r, takeFirst d n = .ok r ∧ Valid r ∧ tags r = tags d ∧
      ∀ q ∈ tags d, Piece q d r 0 (disp q n) ∧ (len q r : Int) = disp q n := by
  obtain ⟨r, h1, h2, h3⟩ := ofSize_ok (b := front d) (n := n)
    (by rw [front, tags_beg]; exact hd.1) (by rw [front, tags_beg, hn.1])
  have ht : tags r = tags d := by rw [h2, front, tags_beg]
  have key : ∀ q ∈ tags d, (lo q r : Int) = lo q d ∧ (hi q r : Int) = lo q d + disp q n := by
    intro q hq
    obtain ⟨⟨b, f⟩, h⟩ := get_ok_iff_mem_tags.2 hq
    obtain ⟨y, hy⟩ := get_ok_iff_mem_tags.2 (show q ∈ tags n by rw [hn.1]; exact hq)
    have hr := h3 q b y (get_beg_ok h) hy
    have := hn.2 q hq
    have hf := f.isLt
    rw [len, lo_ok h, hi_ok h, disp_ok hy] at this
    rw [lo_ok hr, hi_ok hr, lo_ok h, disp_ok hy]
    refine ⟨rfl, toNat_add_of_range (by omega) (by omega)⟩
  refine ⟨r, h1, ⟨ht ▸ hd.1, ?_⟩, ht, ?_⟩
  · intro q hq
    rw [ht] at hq
    have := key q hq; have := hn.2 q hq; have := hd.2 q hq
    simp only [len] at *; omega
  · intro q hq
    have := key q hq; have := hn.2 q hq
    refine ⟨piece_intro (by omega) (by omega), by simp only [len] at *; omega⟩

/-- `take_last(n)` keeps the last `n` indices along every dimension. -/
theorem C06_take_last (d : Dom τ) (hd : Valid d) (n : Vect τ) (hn : CountOk d n) :
    ∃ r, takeLast d n = .ok r ∧ Valid r ∧ tags r = tags d ∧
      ∀ q ∈ tags d, Piece q d r (len q d - disp q n) (len q d) ∧ (len q r : Int) = disp q n := by
  obtain ⟨x, x1, x2, x3⟩ := extents_ok d
  obtain ⟨k, k1, k2, k3⟩ := Vect.sub_same (v := x) (w := n) (by rw [x2]; exact hd.1)
    (by rw [x2, hn.1])
    (by
      intro q a b ha hb
      have hq : q ∈ tags d := by rw [← x2]; exact mem_tags_of_get ha
      obtain ⟨⟨c, f⟩, h⟩ := get_ok_iff_mem_tags.2 hq
      rw [x3 q c f h] at ha; injection ha with ha; subst ha
      have := hn.2 q hq; have := valid_get hd h
      rw [len, lo_ok h, hi_ok h, disp_ok hb] at *
      unfold Vect.InRange; omega)
  obtain ⟨f, f1, f2, _, f4⟩ := Elem.addVec_spec (e := front d) (v := k)
    (by rw [front, tags_beg]; exact hd.1) (by rw [k2, x2]; exact hd.1)
    (by intro q hq; rwa [front, tags_beg, ← x2, ← k2])
  obtain ⟨r, h1, h2, h3⟩ := ofSize_ok (b := f) (n := n)
    (by rw [f2, front, tags_beg]; exact hd.1) (by rw [f2, front, tags_beg, hn.1])
  have ht : tags r = tags d := by rw [h2, f2, front, tags_beg]
  have key : ∀ q ∈ tags d, (lo q r : Int) = lo q d + (len q d - disp q n) ∧ hi q r = hi q d := by
    intro q hq
    obtain ⟨⟨b, e⟩, h⟩ := get_ok_iff_mem_tags.2 hq
    obtain ⟨y, hy⟩ := get_ok_iff_mem_tags.2 (show q ∈ tags n by rw [hn.1]; exact hq)
    have gk := k3 q _ y (x3 q b e h) hy
    have gf := f4 q b _ (get_beg_ok h) gk
    have hr := h3 q _ y gf hy
    have := hn.2 q hq; have hvd := valid_get hd h
    rw [len, lo_ok h, hi_ok h, disp_ok hy] at this
    rw [len, lo_ok hr, hi_ok hr, lo_ok h, hi_ok h, disp_ok hy]
    have e1 : b + (e - b - y) = e - y := by
      rw [BitVec.add_comm, BitVec.sub_sub, BitVec.add_comm b, ← BitVec.sub_sub, BitVec.sub_add_cancel]
    have e2 : b + (e - b - y) + y = e := by rw [e1, BitVec.sub_add_cancel]
    rw [e2]
    refine ⟨?_, rfl⟩
    rw [e1]
    have h6 := BitVec.toInt_eq_toNat_cond y
    have := e.isLt; have := y.isLt
    rw [BitVec.toNat_sub]
    split at h6 <;> omega
  refine ⟨r, by simp [takeLast, x1, k1, f1, h1], ⟨ht ▸ hd.1, ?_⟩, ht, ?_⟩
  · intro q hq
    rw [ht] at hq
    have := key q hq; have := hn.2 q hq; have := hd.2 q hq
    simp only [len] at *; omega
  · intro q hq
    have := key q hq; have := hn.2 q hq; have := hd.2 q hq
    refine ⟨piece_intro (by omega) (by simp only [len] at *; omega), by simp only [len] at *; omega⟩

/-- `remove_first(n)` drops the first `n` indices along every dimension. -/
theorem C06_remove_first (d : Dom τ) (hd : Valid d) (n : Vect τ) (hn : CountOk d n) :
    ∃ r, removeFirst d n = .ok r ∧ Valid r ∧ tags r = tags d ∧
      ∀ q ∈ tags d, Piece q d r (disp q n) (len q d) ∧ (len q r : Int) = len q d - disp q n := by
  obtain ⟨x, x1, x2, x3⟩ := extents_ok d
  obtain ⟨k, k1, k2, k3⟩ := Vect.sub_same (v := x) (w := n) (by rw [x2]; exact hd.1)
    (by rw [x2, hn.1])
    (by
      intro q a b ha hb
      have hq : q ∈ tags d := by rw [← x2]; exact mem_tags_of_get ha
      obtain ⟨⟨c, f⟩, h⟩ := get_ok_iff_mem_tags.2 hq
      rw [x3 q c f h] at ha; injection ha with ha; subst ha
      have := hn.2 q hq; have := valid_get hd h
      rw [len, lo_ok h, hi_ok h, disp_ok hb] at *
      unfold Vect.InRange; omega)
  obtain ⟨f, f1, f2, _, f4⟩ := Elem.addVec_spec (e := front d) (v := n)
    (by rw [front, tags_beg]; exact hd.1) (by rw [hn.1]; exact hd.1)
    (by intro q hq; rwa [front, tags_beg, ← hn.1])
  obtain ⟨r, h1, h2, h3⟩ := ofSize_ok (b := f) (n := k)
    (by rw [f2, front, tags_beg]; exact hd.1) (by rw [f2, front, tags_beg, k2, x2])
  have ht : tags r = tags d := by rw [h2, f2, front, tags_beg]
  have key : ∀ q ∈ tags d, (lo q r : Int) = lo q d + disp q n ∧ hi q r = hi q d := by
    intro q hq
    obtain ⟨⟨b, e⟩, h⟩ := get_ok_iff_mem_tags.2 hq
    obtain ⟨y, hy⟩ := get_ok_iff_mem_tags.2 (show q ∈ tags n by rw [hn.1]; exact hq)
    have gk := k3 q _ y (x3 q b e h) hy
    have gf := f4 q b _ (get_beg_ok h) hy
    have hr := h3 q _ _ gf gk
    have := hn.2 q hq; have hvd := valid_get hd h
    have hf := e.isLt
    rw [len, lo_ok h, hi_ok h, disp_ok hy] at this
    rw [lo_ok hr, hi_ok hr, lo_ok h, hi_ok h, disp_ok hy]
    have e2 : b + y + (e - b - y) = e := by
      rw [BitVec.sub_sub, BitVec.add_comm, BitVec.sub_add_cancel]
    rw [e2]
    exact ⟨toNat_add_of_range (by omega) (by omega), rfl⟩
  refine ⟨r, by simp [removeFirst, x1, k1, f1, h1], ⟨ht ▸ hd.1, ?_⟩, ht, ?_⟩
  · intro q hq
    rw [ht] at hq
    have := key q hq; have := hn.2 q hq; have := hd.2 q hq
    simp only [len] at *; omega
  · intro q hq
    have := key q hq; have := hn.2 q hq; have := hd.2 q hq
    refine ⟨piece_intro (by omega) (by simp only [len] at *; omega), by simp only [len] at *; omega⟩

/-- `remove_last(n)` drops the last `n` indices along every dimension. -/
theorem C06_remove_last (d : Dom τ) (hd : Valid d) (n : Vect τ) (hn : CountOk d n) :
    ∃ r, removeLast d n = .ok r ∧ Valid r ∧ tags r = tags d ∧
      ∀ q ∈ tags d, Piece q d r 0 (len q d - disp q n) ∧ (len q r : Int) = len q d - disp q n := by
  obtain ⟨x, x1, x2, x3⟩ := extents_ok d
  obtain ⟨k, k1, k2, k3⟩ := Vect.sub_same (v := x) (w := n) (by rw [x2]; exact hd.1)
    (by rw [x2, hn.1])
    (by
      intro q a b ha hb
      have hq : q ∈ tags d := by rw [← x2]; exact mem_tags_of_get ha
      obtain ⟨⟨c, f⟩, h⟩ := get_ok_iff_mem_tags.2 hq
      rw [x3 q c f h] at ha; injection ha with ha; subst ha
      have := hn.2 q hq; have := valid_get hd h
      rw [len, lo_ok h, hi_ok h, disp_ok hb] at *
      unfold Vect.InRange; omega)
  obtain ⟨r, h1, h2, h3⟩ := ofSize_ok (b := front d) (n := k)
    (by rw [front, tags_beg]; exact hd.1) (by rw [front, tags_beg, k2, x2])
  have ht : tags r = tags d := by rw [h2, front, tags_beg]
  have key : ∀ q ∈ tags d, lo q r = lo q d ∧ (hi q r : Int) = hi q d - disp q n := by
    intro q hq
    obtain ⟨⟨b, e⟩, h⟩ := get_ok_iff_mem_tags.2 hq
    obtain ⟨y, hy⟩ := get_ok_iff_mem_tags.2 (show q ∈ tags n by rw [hn.1]; exact hq)
    have gk := k3 q _ y (x3 q b e h) hy
    have hr := h3 q _ _ (get_beg_ok h) gk
    have := hn.2 q hq; have hvd := valid_get hd h
    rw [len, lo_ok h, hi_ok h, disp_ok hy] at this
    rw [lo_ok hr, hi_ok hr, lo_ok h, hi_ok h, disp_ok hy]
    have e1 : b + (e - b - y) = e - y := by
      rw [BitVec.add_comm, BitVec.sub_sub, BitVec.add_comm b, ← BitVec.sub_sub, BitVec.sub_add_cancel]
    refine ⟨rfl, ?_⟩
    rw [e1]
    have h6 := BitVec.toInt_eq_toNat_cond y
    have := e.isLt; have := y.isLt
    rw [BitVec.toNat_sub]
    split at h6 <;> omega
  refine ⟨r, by simp [removeLast, x1, k1, h1], ⟨ht ▸ hd.1, ?_⟩, ht, ?_⟩
  · intro q hq
    rw [ht] at hq
    have := key q hq; have := hn.2 q hq; have := hd.2 q hq
    simp only [len] at *; omega
  · intro q hq
    have := key q hq; have := hn.2 q hq; have := hd.2 q hq
    refine ⟨piece_intro (by omega) (by simp only [len] at *; omega), by simp only [len] at *; omega⟩

/-- `remove(n1, n2)` drops the first `n1` and the last `n2` indices. -/
theorem C06_remove (d : Dom τ) (hd : Valid d) (n1 n2 : Vect τ) (hn1 : tags n1 = tags d)
    (hn2 : tags n2 = tags d)
    (hn : ∀ q ∈ tags d, 0 ≤ disp q n1 ∧ 0 ≤ disp q n2 ∧ disp q n1 + disp q n2 ≤ len q d) :
    ∃ r, Dom.remove d n1 n2 = .ok r ∧ Valid r ∧ tags r = tags d ∧
      ∀ q ∈ tags d, Piece q d r (disp q n1) (len q d - disp q n2) ∧
        (len q r : Int) = len q d - disp q n1 - disp q n2 := by
  obtain ⟨x, x1, x2, x3⟩ := extents_ok d
  obtain ⟨k, k1, k2, k3⟩ := Vect.sub_same (v := x) (w := n1) (by rw [x2]; exact hd.1)
    (by rw [x2, hn1])
    (by
      intro q a b ha hb
      have hq : q ∈ tags d := by rw [← x2]; exact mem_tags_of_get ha
      obtain ⟨⟨c, f⟩, h⟩ := get_ok_iff_mem_tags.2 hq
      rw [x3 q c f h] at ha; injection ha with ha; subst ha
      have := hn q hq; have := valid_get hd h
      rw [len, lo_ok h, hi_ok h, disp_ok hb] at *
      unfold Vect.InRange; omega)
  have hk : ∀ q b e y, get q d = .ok (b, e) → get q n1 = .ok y →
      get q k = .ok (e - b - y) ∧ (e - b - y).toInt = (e.toNat : Int) - b.toNat - y.toInt := by
    intro q b e y h hy
    refine ⟨k3 q _ y (x3 q b e h) hy, ?_⟩
    have := hn q (mem_tags_of_get h); have hvd := valid_get hd h
    rw [len, lo_ok h, hi_ok h, disp_ok hy] at this
    rw [← hvd.2.2, ← Vect.ofInt_sub_toInt]
    exact toInt_ofInt_of_range (by omega)
  obtain ⟨k', j1, j2, j3⟩ := Vect.sub_same (v := k) (w := n2) (by rw [k2, x2]; exact hd.1)
    (by rw [k2, x2, hn2])
    (by
      intro q a b ha hb
      have hq : q ∈ tags d := by rw [← x2, ← k2]; exact mem_tags_of_get ha
      obtain ⟨⟨c, f⟩, h⟩ := get_ok_iff_mem_tags.2 hq
      obtain ⟨y, hy⟩ := get_ok_iff_mem_tags.2 (show q ∈ tags n1 by rw [hn1]; exact hq)
      have e1 := hk q c f y h hy
      rw [e1.1] at ha; injection ha with ha; subst ha
      have := hn q hq; have := valid_get hd h
      rw [len, lo_ok h, hi_ok h, disp_ok hb, disp_ok hy] at *
      unfold Vect.InRange; omega)
  obtain ⟨f, f1, f2, _, f4⟩ := Elem.addVec_spec (e := front d) (v := n1)
    (by rw [front, tags_beg]; exact hd.1) (by rw [hn1]; exact hd.1)
    (by intro q hq; rwa [front, tags_beg, ← hn1])
  obtain ⟨r, h1, h2, h3⟩ := ofSize_ok (b := f) (n := k')
    (by rw [f2, front, tags_beg]; exact hd.1) (by rw [f2, front, tags_beg, j2, k2, x2])
  have ht : tags r = tags d := by rw [h2, f2, front, tags_beg]
  have key : ∀ q ∈ tags d, (lo q r : Int) = lo q d + disp q n1 ∧ (hi q r : Int) = hi q d - disp q n2 := by
    intro q hq
    obtain ⟨⟨b, e⟩, h⟩ := get_ok_iff_mem_tags.2 hq
    obtain ⟨y, hy⟩ := get_ok_iff_mem_tags.2 (show q ∈ tags n1 by rw [hn1]; exact hq)
    obtain ⟨z, hz⟩ := get_ok_iff_mem_tags.2 (show q ∈ tags n2 by rw [hn2]; exact hq)
    have gk := (hk q b e y h hy).1
    have gj := j3 q _ z gk hz
    have gf := f4 q b _ (get_beg_ok h) hy
    have hr := h3 q _ _ gf gj
    have := hn q hq; have hvd := valid_get hd h
    have hf := e.isLt
    rw [len, lo_ok h, hi_ok h, disp_ok hy, disp_ok hz] at this
    rw [lo_ok hr, hi_ok hr, lo_ok h, hi_ok h, disp_ok hy, disp_ok hz]
    have e2 : b + y + (e - b - y - z) = e - z := by
      rw [BitVec.sub_sub e b y, BitVec.add_comm, BitVec.sub_sub, BitVec.add_comm (b + y) z,
        ← BitVec.sub_sub, BitVec.sub_add_cancel]
    rw [e2]
    refine ⟨toNat_add_of_range (by omega) (by omega), ?_⟩
    have h6 := BitVec.toInt_eq_toNat_cond z
    have := z.isLt
    rw [BitVec.toNat_sub]
    split at h6 <;> omega
  refine ⟨r, by simp [Dom.remove, x1, k1, j1, f1, h1], ⟨ht ▸ hd.1, ?_⟩, ht, ?_⟩
  · intro q hq
    rw [ht] at hq
    have := key q hq; have := hn q hq; have := hd.2 q hq
    simp only [len] at *; omega
  · intro q hq
    have := key q hq; have := hn q hq; have := hd.2 q hq
    refine ⟨piece_intro (by omega) (by simp only [len] at *; omega), by simp only [len] at *; omega⟩

/-- Along every dimension, `take_first(n)`/`remove_first(n)` and
`remove_last(n)`/`take_last(n)` are partitions of the index range. -/
theorem C06_partition (d : Dom τ) (hd : Valid d) (n : Vect τ) (hn : CountOk d n) :
    ∃ tf rf tl rl, takeFirst d n = .ok tf ∧ removeFirst d n = .ok rf ∧ takeLast d n = .ok tl ∧
      removeLast d n = .ok rl ∧
      ∀ q ∈ tags d, ∀ k : Nat,
        ((lo q d ≤ k ∧ k < hi q d) ↔ ((lo q tf ≤ k ∧ k < hi q tf) ∨ (lo q rf ≤ k ∧ k < hi q rf))) ∧
        ¬ ((lo q tf ≤ k ∧ k < hi q tf) ∧ (lo q rf ≤ k ∧ k < hi q rf)) ∧
        ((lo q d ≤ k ∧ k < hi q d) ↔ ((lo q rl ≤ k ∧ k < hi q rl) ∨ (lo q tl ≤ k ∧ k < hi q tl))) ∧
        ¬ ((lo q rl ≤ k ∧ k < hi q rl) ∧ (lo q tl ≤ k ∧ k < hi q tl)) ∧
        len q tf + len q rf = len q d ∧ len q rl + len q tl = len q d := by
  obtain ⟨tf, a1, _, _, a4⟩ := C06_take_first d hd n hn
  obtain ⟨rf, b1, _, _, b4⟩ := C06_remove_first d hd n hn
  obtain ⟨tl, c1, _, _, c4⟩ := C06_take_last d hd n hn
  obtain ⟨rl, d1, _, _, d4⟩ := C06_remove_last d hd n hn
  refine ⟨tf, rf, tl, rl, a1, b1, c1, d1, ?_⟩
  intro q hq k
  have A := (a4 q hq).1 k; have A' := (a4 q hq).2
  have B := (b4 q hq).1 k; have B' := (b4 q hq).2
  have C := (c4 q hq).1 k; have C' := (c4 q hq).2
  have D := (d4 q hq).1 k; have D' := (d4 q hq).2
  have hq1 := hd.2 q hq; have hn1 := hn.2 q hq
  have hl : (len q d : Int) = hi q d - lo q d := by rw [len]; omega
  refine ⟨?_, ?_, ?_, ?_, by omega, by omega⟩ <;> omega

/-! Non-vacuity: an interior split. -/
example : ∃ tf rl rm, takeFirst ([('x', (5, 9))] : Dom Char) [('x', 3)] = .ok tf ∧ tf = [('x', (5, 8))] ∧
    removeLast ([('x', (5, 9))] : Dom Char) [('x', 1)] = .ok rl ∧ rl = [('x', (5, 8))] ∧
    Dom.remove ([('x', (5, 9))] : Dom Char) [('x', 1)] [('x', 1)] = .ok rm ∧ rm = [('x', (6, 8))] :=
  ⟨_, _, _, rfl, by decide, rfl, by decide, rfl, by decide⟩
example : CountOk ([('x', (5, 9))] : Dom Char) [('x', 3)] := by
  refine ⟨rfl, ?_⟩
  intro q hq
  simp only [tags, List.map_cons, List.map_nil, List.mem_cons, List.not_mem_nil, or_false] at hq
  subst hq; decide

end DDC.Props
