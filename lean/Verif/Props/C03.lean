import Verif.Lemmas.Element

/-!
# C03  Element arithmetic is a torsor action modulo `2^64`
-/

namespace DDC.Props

open Tup Elem

variable {τ : Type} [DecidableEq τ]

/-- `e + v` for a vector over a sub-pack: tags not in the sub-pack keep their
index; each other index is, modulo `2^64`, the sum of the index and of the signed
displacement, hence exactly that sum when it is in `[0, 2^64)`. -/
theorem C03_add_exact (e : Elem τ) (v : Vect τ) (he : (tags e).Nodup) (hv : (tags v).Nodup)
    (hs : ∀ q ∈ tags v, q ∈ tags e) :
    ∃ r, addVec e v = .ok r ∧ tags r = tags e ∧ (∀ q, q ∉ tags v → get q r = get q e) ∧
      ∀ q a x, get q e = .ok a → get q v = .ok x →
        ∃ b, get q r = .ok b ∧ (b.toNat : Int) = (a.toNat + x.toInt) % 2 ^ 64 ∧
          (0 ≤ a.toNat + x.toInt → a.toNat + x.toInt < 2 ^ 64 → (b.toNat : Int) = a.toNat + x.toInt) := by
  obtain ⟨r, h1, h2, h3, h4⟩ := addVec_spec he hv hs
  refine ⟨r, h1, h2, h3, ?_⟩
  intro q a x ha hx
  refine ⟨a + x, h4 q a x ha hx, ?_⟩
  have h5 := BitVec.toNat_add a x
  have h6 := BitVec.toInt_eq_toNat_cond x
  have ha := a.isLt
  have hx := x.isLt
  have key : ((a + x).toNat : Int) = (a.toNat + x.toInt) % 2 ^ 64 := by
    rw [h5, h6]; split <;> omega
  refine ⟨key, ?_⟩
  intro p1 p2
  rw [key]; omega

/-- `e - v`, same statement. -/
theorem C03_sub_exact (e : Elem τ) (v : Vect τ) (he : (tags e).Nodup) (hv : (tags v).Nodup)
    (hs : ∀ q ∈ tags v, q ∈ tags e) :
    ∃ r, subVec e v = .ok r ∧ tags r = tags e ∧ (∀ q, q ∉ tags v → get q r = get q e) ∧
      ∀ q a x, get q e = .ok a → get q v = .ok x →
        ∃ b, get q r = .ok b ∧ (b.toNat : Int) = (a.toNat - x.toInt) % 2 ^ 64 ∧
          (0 ≤ a.toNat - x.toInt → a.toNat - x.toInt < 2 ^ 64 → (b.toNat : Int) = a.toNat - x.toInt) := by
  obtain ⟨r, h1, h2, h3, h4⟩ := subVec_spec he hv hs
  refine ⟨r, h1, h2, h3, ?_⟩
  intro q a x ha hx
  refine ⟨a - x, h4 q a x ha hx, ?_⟩
  have h5 := BitVec.toNat_sub a x
  have h6 := BitVec.toInt_eq_toNat_cond x
  have ha := a.isLt
  have hx := x.isLt
  have key : ((a - x).toNat : Int) = (a.toNat - x.toInt) % 2 ^ 64 := by
    rw [h5, h6]; split <;> omega
  refine ⟨key, ?_⟩
  intro p1 p2
  rw [key]; omega

/-- `a - b` between elements: the signed representative of the difference modulo
`2^64`, hence the exact difference when it is representable. -/
theorem C03_diff_exact (a b : Elem τ) (hs : ∀ q, q ∈ tags a ↔ q ∈ tags b) :
    ∃ r, Elem.sub a b = .ok r ∧ tags r = tags a ∧
      ∀ q x y, get q a = .ok x → get q b = .ok y →
        ∃ d, get q r = .ok d ∧
          (-2 ^ 63 ≤ (x.toNat : Int) - y.toNat → (x.toNat : Int) - y.toNat < 2 ^ 63 →
            d.toInt = (x.toNat : Int) - y.toNat) := by
  obtain ⟨r, h1, h2, h3⟩ := sub_spec hs
  refine ⟨r, h1, h2, ?_⟩
  intro q x y hx hy
  refine ⟨x - y, h3 q x y hx hy, ?_⟩
  intro p1 p2
  have h5 := BitVec.toNat_sub x y
  have h6 := BitVec.toInt_eq_toNat_cond (x - y)
  have hx := x.isLt
  have hy := y.isLt
  rw [h6, h5]; split <;> omega

/-- `(e + v) - v = e` and `(e - v) + v = e`, including wrap-around. -/
theorem C03_cancel (e : Elem τ) (v : Vect τ) (he : (tags e).Nodup) (hv : (tags v).Nodup)
    (hs : ∀ q ∈ tags v, q ∈ tags e) :
    (∃ r, addVec e v = .ok r ∧ subVec r v = .ok e) ∧
    (∃ r, subVec e v = .ok r ∧ addVec r v = .ok e) := by
  constructor
  · obtain ⟨r, h1, h2, h3, h4⟩ := addVec_spec he hv hs
    obtain ⟨s, g1, g2, g3, g4⟩ := subVec_spec (e := r) (by rw [h2]; exact he) hv (by rw [h2]; exact hs)
    refine ⟨r, h1, ?_⟩
    rw [g1]; congr 1
    refine ext_get (by rw [g2, h2]) (by rw [g2, h2]; exact he) ?_
    intro q hq
    rw [g2, h2] at hq
    by_cases hqv : q ∈ tags v
    · obtain ⟨a, ha⟩ := get_ok_iff_mem_tags.2 hq
      obtain ⟨x, hx⟩ := get_ok_iff_mem_tags.2 hqv
      rw [g4 q _ x (h4 q a x ha hx) hx, ha, BitVec.add_sub_cancel]
    · rw [g3 q hqv, h3 q hqv]
  · obtain ⟨r, h1, h2, h3, h4⟩ := subVec_spec he hv hs
    obtain ⟨s, g1, g2, g3, g4⟩ := addVec_spec (e := r) (by rw [h2]; exact he) hv (by rw [h2]; exact hs)
    refine ⟨r, h1, ?_⟩
    rw [g1]; congr 1
    refine ext_get (by rw [g2, h2]) (by rw [g2, h2]; exact he) ?_
    intro q hq
    rw [g2, h2] at hq
    by_cases hqv : q ∈ tags v
    · obtain ⟨a, ha⟩ := get_ok_iff_mem_tags.2 hq
      obtain ⟨x, hx⟩ := get_ok_iff_mem_tags.2 hqv
      rw [g4 q _ x (h4 q a x ha hx) hx, ha, BitVec.sub_add_cancel]
    · rw [g3 q hqv, h3 q hqv]

/-- `(e + v) - e = v` for a vector over the same tags (in any order). -/
theorem C03_add_diff (e : Elem τ) (v : Vect τ) (he : (tags e).Nodup) (hv : (tags v).Nodup)
    (hs : ∀ q, q ∈ tags v ↔ q ∈ tags e) :
    ∃ r d, addVec e v = .ok r ∧ Elem.sub r e = .ok d ∧ tags d = tags e ∧
      ∀ q, get q d = get q v := by
  obtain ⟨r, h1, h2, h3, h4⟩ := addVec_spec he hv (fun q hq => (hs q).1 hq)
  obtain ⟨d, g1, g2, g3⟩ := sub_spec (a := r) (b := e) (by rw [h2]; simp)
  refine ⟨r, d, h1, g1, by rw [g2, h2], ?_⟩
  intro q
  by_cases hq : q ∈ tags e
  · obtain ⟨a, ha⟩ := get_ok_iff_mem_tags.2 hq
    obtain ⟨x, hx⟩ := get_ok_iff_mem_tags.2 ((hs q).2 hq)
    rw [g3 q _ a (h4 q a x ha hx) ha, hx, BitVec.add_comm, BitVec.add_sub_cancel]
  · rw [get_ill (by rw [g2, h2]; exact hq), get_ill (fun h => hq ((hs q).1 h))]

/-- `a + (b - a) = b` tag by tag. -/
theorem C03_diff_add (a b : Elem τ) (ha : (tags a).Nodup) (hb : (tags b).Nodup)
    (hs : ∀ q, q ∈ tags a ↔ q ∈ tags b) :
    ∃ d r, Elem.sub b a = .ok d ∧ addVec a d = .ok r ∧ tags r = tags a ∧ Elem.eq r b = .ok true := by
  obtain ⟨d, h1, h2, h3⟩ := sub_spec (a := b) (b := a) (fun q => (hs q).symm)
  obtain ⟨r, g1, g2, g3, g4⟩ := addVec_spec (e := a) (v := d) ha (by rw [h2]; exact hb)
    (by rw [h2]; exact fun q hq => (hs q).2 hq)
  refine ⟨d, r, h1, g1, g2, ?_⟩
  have hall : ∀ q ∈ tags r, get q r = get q b := by
    intro q hq
    rw [g2] at hq
    obtain ⟨x, hx⟩ := get_ok_iff_mem_tags.2 hq
    obtain ⟨y, hy⟩ := get_ok_iff_mem_tags.2 ((hs q).1 hq)
    rw [g4 q x _ hx (h3 q y x hy hx), hy, BitVec.add_comm, BitVec.sub_add_cancel]
  obtain ⟨c, e1, e2⟩ := eqFold_ok (x := r) (y := b) (by rw [g2]; exact ha)
    (by rw [g2]; exact fun q hq => (hs q).1 hq)
  rw [Elem.eq, e1, e2.2 hall]

/-- `(e + v) + w = (e + w) + v`. -/
theorem C03_add_comm (e : Elem τ) (v w : Vect τ) (he : (tags e).Nodup) (hv : (tags v).Nodup)
    (hw : (tags w).Nodup) (hsv : ∀ q ∈ tags v, q ∈ tags e) (hsw : ∀ q ∈ tags w, q ∈ tags e) :
    ∃ r, (addVec e v >>= (addVec · w)) = .ok r ∧ (addVec e w >>= (addVec · v)) = .ok r := by
  obtain ⟨a, a1, a2, a3, a4⟩ := addVec_spec he hv hsv
  obtain ⟨b, b1, b2, b3, b4⟩ := addVec_spec (e := a) (by rw [a2]; exact he) hw (by rw [a2]; exact hsw)
  obtain ⟨c, c1, c2, c3, c4⟩ := addVec_spec he hw hsw
  obtain ⟨d, d1, d2, d3, d4⟩ := addVec_spec (e := c) (by rw [c2]; exact he) hv (by rw [c2]; exact hsv)
  refine ⟨b, by simp [a1, b1], ?_⟩
  simp only [c1, Res.ok_bind, d1]
  congr 1
  refine ext_get (by rw [d2, c2, b2, a2]) (by rw [d2, c2]; exact he) ?_
  intro q hq
  rw [d2, c2] at hq
  obtain ⟨x, hx⟩ := get_ok_iff_mem_tags.2 hq
  by_cases h1 : q ∈ tags v <;> by_cases h2 : q ∈ tags w
  · obtain ⟨y, hy⟩ := get_ok_iff_mem_tags.2 h1
    obtain ⟨z, hz⟩ := get_ok_iff_mem_tags.2 h2
    rw [d4 q _ y (c4 q x z hx hz) hy, b4 q _ z (a4 q x y hx hy) hz]
    congr 1
    rw [BitVec.add_assoc, BitVec.add_assoc, BitVec.add_comm y z]
  · obtain ⟨y, hy⟩ := get_ok_iff_mem_tags.2 h1
    rw [d4 q x y (by rw [c3 q h2]; exact hx) hy, b3 q h2, a4 q x y hx hy]
  · obtain ⟨z, hz⟩ := get_ok_iff_mem_tags.2 h2
    rw [d3 q h1, c4 q x z hx hz, b4 q x z (by rw [a3 q h1]; exact hx) hz]
  · rw [d3 q h1, c3 q h2, b3 q h2, a3 q h1]

/-- One-dimensional `++`/`--` (pre and post) and integer displacements: `++` adds
one, `--` subtracts one, they are inverse of each other and the post-forms return
the previous value; adding an integer is adding the one-component vector. -/
theorem C03_inc_dec (t : τ) (a : U64) (x : I64) :
    inc [(t, a)] = addVec [(t, a)] [(t, 1)] ∧ dec [(t, a)] = subVec [(t, a)] [(t, 1)] ∧
    (inc [(t, a)] >>= dec) = .ok [(t, a)] ∧ (dec [(t, a)] >>= inc) = .ok [(t, a)] ∧
    postInc [(t, a)] = .ok ([(t, a)], [(t, a + 1)]) ∧
    postDec [(t, a)] = .ok ([(t, a)], [(t, a - 1)]) ∧
    Elem.addInt [(t, a)] x = addVec [(t, a)] [(t, x)] ∧
    Elem.subInt [(t, a)] x = subVec [(t, a)] [(t, x)] := by
  refine ⟨?_, ?_, ?_, ?_, rfl, rfl, ?_, ?_⟩
  · simp [inc, addVec, opAssign, Tup.modify]
  · simp [dec, subVec, opAssign, Tup.modify]
  · simp [inc, dec, BitVec.add_sub_cancel]
  · simp [inc, dec, BitVec.sub_add_cancel]
  · simp [Elem.addInt, addVec, opAssign, Tup.modify]
  · simp [Elem.subInt, subVec, opAssign, Tup.modify]

/-- The ordering operators of one-dimensional elements are the order of the
indices as natural numbers. -/
theorem C03_order (t : τ) (a b : U64) :
    Elem.lt [(t, a)] [(t, b)] = .ok (decide (a.toNat < b.toNat)) ∧
    Elem.le [(t, a)] [(t, b)] = .ok (decide (a.toNat ≤ b.toNat)) ∧
    Elem.gt [(t, a)] [(t, b)] = .ok (decide (b.toNat < a.toNat)) ∧
    Elem.ge [(t, a)] [(t, b)] = .ok (decide (b.toNat ≤ a.toNat)) := by
  simp only [Elem.lt, Elem.le, Elem.gt, Elem.ge, if_true, BitVec.lt_def, BitVec.le_def, gt_iff_lt, ge_iff_le]
  simp

/-- The reference element of a dimension has index 0. -/
theorem C03_reference (t : τ) : get t (createReference t) = .ok 0 ∧ tags (createReference t) = [t] := by
  simp [createReference]

/-! Non-vacuity: a two-dimensional element and a displacement of its second
dimension that wraps around. -/
example : addVec ([('x', 3), ('y', 2)] : Elem Char) [('y', -5)] =
    .ok [('x', 3), ('y', BitVec.ofNat 64 (2 ^ 64 - 3))] := by decide
example : (tags ([('x', 3), ('y', 2)] : Elem Char)).Nodup ∧ (tags ([('y', -5)] : Vect Char)).Nodup ∧
    ∀ q ∈ tags ([('y', -5)] : Vect Char), q ∈ tags ([('x', 3), ('y', 2)] : Elem Char) := by decide

end DDC.Props
