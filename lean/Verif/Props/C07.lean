import Verif.Lemmas.DomainOps

/-!
# C07  Positions and elements of a domain are in bijection (contiguous domains)

The strided and sparse cases are in `C07b.lean`.
-/

namespace DDC.Props

open Tup Dom Spec

variable {τ : Type} [DecidableEq τ]

/-- `domain(v)` is the element at position `v`: contained, with index
`front + v` along every dimension, and `distance_from_front` of it is `v`. -/
theorem C07_position_to_element (d : Dom τ) (hd : Valid d) (v : Vect τ) (ht : tags v = tags d)
    (hv : ∀ q ∈ tags d, 0 ≤ disp q v ∧ disp q v < len q d) :
    ∃ e, at' d v = .ok e ∧ tags e = tags d ∧ contains d [e] = .ok true ∧
      (∀ q ∈ tags d, (idx q e : Int) = lo q d + disp q v) ∧ distanceFromFront d [e] = .ok v := by
  obtain ⟨e, h1, h2, h3⟩ := at_ok hd.1 ht
  have key : ∀ q ∈ tags d, (idx q e : Int) = lo q d + disp q v := by
    intro q hq
    obtain ⟨⟨b, f⟩, hb⟩ := get_ok_iff_mem_tags.2 hq
    obtain ⟨x, hx⟩ := get_ok_iff_mem_tags.2 (show q ∈ tags v by rw [ht]; exact hq)
    have := hv q hq
    have hf := f.isLt
    rw [len, lo_ok hb, hi_ok hb, disp_ok hx] at this
    rw [idx_ok (h3 q b f x hb hx), lo_ok hb, disp_ok hx]
    exact toNat_add_of_range (by omega) (by omega)
  refine ⟨e, h1, h2, ?_, key, ?_⟩
  · obtain ⟨c, g1, g2⟩ := contains_one hd.1 (e := e) (by rw [SameTags, h2])
    rw [g1]
    congr 1
    rw [g2]
    intro q hq
    have := key q hq; have := hv q hq; have := hd.2 q hq
    simp only [len] at *; omega
  · obtain ⟨w, g1, g2, g3⟩ := distance_ok hd.1 (es := [e]) (by simp [h2])
    rw [g1]; congr 1
    refine ext_get' (by rw [g2, ht]) (by rw [g2]; exact hd.1) ?_
    intro q y hy
    have hq : q ∈ tags d := by rw [← g2]; exact mem_tags_of_get hy
    obtain ⟨⟨b, f⟩, hb⟩ := get_ok_iff_mem_tags.2 hq
    obtain ⟨x, hx⟩ := get_ok_iff_mem_tags.2 (show q ∈ tags v by rw [ht]; exact hq)
    rw [g3 q b f hb e (by simp) _ (h3 q b f x hb hx), BitVec.add_comm, BitVec.add_sub_cancel] at hy
    rw [hx, hy]

/-- `distance_from_front(e...)`, for any grouping of the coordinates, is a position
inside the extents when the element is contained, and `domain(...)` of it is the
element (in the tag order of the domain). -/
theorem C07_element_to_position (d : Dom τ) (hd : Valid d) (es : List (Elem τ))
    (hp : (es.flatMap tags).Perm (tags d)) (hc : contains d es = .ok true) :
    ∃ v r, distanceFromFront d es = .ok v ∧ tags v = tags d ∧
      (∀ q ∈ tags d, 0 ≤ disp q v ∧ disp q v < len q d ∧
        ∀ e ∈ es, q ∈ tags e → disp q v = idx q e - lo q d) ∧
      at' d v = .ok r ∧ tags r = tags d ∧ ∀ e ∈ es, ∀ q ∈ tags e, get q r = get q e := by
  obtain ⟨v, h1, h2, h3⟩ := distance_ok hd.1 hp
  obtain ⟨r, r1, r2, r3⟩ := at_ok hd.1 h2
  have hbox : ∀ q ∈ tags d, ∀ e ∈ es, q ∈ tags e → lo q d ≤ idx q e ∧ idx q e < hi q d := by
    obtain ⟨e, g1, g2, g3⟩ := ofTuples_ok (ownedOnce_of_perm hd.1 hp)
    have hl : d.length = (es.map List.length).sum := by
      rw [← length_tags d]; exact sum_length_of_perm hp
    obtain ⟨c, k1, k2⟩ := contains_iff hd.1 hl g1
    rw [hc] at k1; injection k1 with k1
    have := k2.1 k1.symm
    intro q hq x hx hqx
    have := this q hq
    simpa only [idx, g3 q hq x hx hqx] using this
  refine ⟨v, r, h1, h2, ?_, r1, r2, ?_⟩
  · intro q hq
    have hall : ∀ e ∈ es, q ∈ tags e → disp q v = idx q e - lo q d := by
      intro e he hqe
      obtain ⟨⟨b, f⟩, hb⟩ := get_ok_iff_mem_tags.2 hq
      obtain ⟨x, hx⟩ := get_ok_iff_mem_tags.2 hqe
      have := hbox q hq e he hqe
      have hvd := valid_get hd hb
      rw [idx_ok hx, lo_ok hb, hi_ok hb] at this
      rw [disp_ok (h3 q b f hb e he x hx), idx_ok hx, lo_ok hb]
      exact toInt_sub_of_le (by omega) (by omega)
    obtain ⟨e, he, hqe⟩ := List.mem_flatMap.1 (hp.mem_iff.2 hq)
    have h := hall e he hqe
    have := hbox q hq e he hqe
    refine ⟨by omega, by simp only [len]; omega, hall⟩
  · intro e he q hqe
    have hq : q ∈ tags d := hp.mem_iff.1 (List.mem_flatMap.2 ⟨e, he, hqe⟩)
    obtain ⟨⟨b, f⟩, hb⟩ := get_ok_iff_mem_tags.2 hq
    obtain ⟨x, hx⟩ := get_ok_iff_mem_tags.2 hqe
    rw [r3 q b f _ hb (h3 q b f hb e he x hx), hx, BitVec.add_comm, BitVec.sub_add_cancel]

/-- Position zero is the front and position `extents - 1` is the back. -/
theorem C07_ends (d : Dom τ) (hd : Valid d) :
    at' d (d.map (fun p => (p.1, (0 : I64)))) = .ok (front d) ∧
    ∀ v, tags v = tags d → (∀ q ∈ tags d, disp q v = (len q d : Int) - 1) → at' d v = back d := by
  constructor
  · have ht : tags (d.map (fun p => (p.1, (0 : I64)))) = tags d := tags_map_snd (fun _ => (0 : I64)) d
    obtain ⟨e, h1, h2, h3⟩ := at_ok hd.1 ht
    rw [h1]; congr 1
    refine ext_get' (by rw [h2, front, tags_beg]) (by rw [h2]; exact hd.1) ?_
    intro q y hy
    have hq : q ∈ tags d := by rw [← h2]; exact mem_tags_of_get hy
    obtain ⟨⟨b, f⟩, hb⟩ := get_ok_iff_mem_tags.2 hq
    have hz : get q (d.map (fun p => (p.1, (0 : I64)))) = .ok 0 := by
      rw [get_map_snd q (fun _ => (0 : I64)) d, hb]; rfl
    rw [h3 q b f 0 hb hz] at hy
    rw [front, get_beg_ok hb, ← hy]; simp
  · intro v ht hv
    obtain ⟨e, h1, h2, h3⟩ := at_ok hd.1 ht
    obtain ⟨k, k1, k2, k3⟩ := back_ok d hd.1
    rw [h1, k1]; congr 1
    refine ext_get' (by rw [h2, k2]) (by rw [h2]; exact hd.1) ?_
    intro q y hy
    have hq : q ∈ tags d := by rw [← h2]; exact mem_tags_of_get hy
    obtain ⟨⟨b, f⟩, hb⟩ := get_ok_iff_mem_tags.2 hq
    obtain ⟨x, hx⟩ := get_ok_iff_mem_tags.2 (show q ∈ tags v by rw [ht]; exact hq)
    have e1 := hv q hq
    have hvd := valid_get hd hb
    rw [disp_ok hx, len, lo_ok hb, hi_ok hb] at e1
    rw [h3 q b f x hb hx] at hy
    rw [k3 q b f hb, ← hy]
    congr 1
    have hx' : x = f - b - 1 := by
      apply BitVec.eq_of_toInt_eq
      rw [e1]
      have e2 : (f - b - 1 : I64) = BitVec.ofInt 64 ((f - b).toInt - (1 : I64).toInt) :=
        (Vect.ofInt_sub_toInt _ _).symm
      rw [e2, toInt_ofInt_of_range]
      · rw [hvd.2.2]
        have : (1 : I64).toInt = 1 := by decide
        rw [this]; omega
      · rw [hvd.2.2]
        have : (1 : I64).toInt = 1 := by decide
        rw [this]; omega
    rw [hx', BitVec.sub_sub, BitVec.add_comm b 1, ← BitVec.sub_sub, BitVec.add_comm,
      BitVec.sub_add_cancel]

/-! Non-vacuity. -/
example : at' ([('x', (5, 9)), ('y', (1, 4))] : Dom Char) [('x', 2), ('y', 0)] = .ok [('x', 7), ('y', 1)] ∧
    distanceFromFront ([('x', (5, 9)), ('y', (1, 4))] : Dom Char) [[('y', 1)], [('x', 7)]]
      = .ok [('x', 2), ('y', 0)] := by decide

end DDC.Props
