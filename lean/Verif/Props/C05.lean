import Verif.Lemmas.Domain

/-!
# C05  A contiguous domain is exactly a Cartesian product of index ranges
-/

namespace DDC.Props

open Tup Dom Spec

variable {τ : Type} [DecidableEq τ]

/-- Construction from a front element and extents that stay in the range of
`size_t`: the domain reports back what it was given, and its bounds are exact. -/
theorem C05_ctor (b : Elem τ) (n : Vect τ) (hnd : (tags b).Nodup) (ht : tags b = tags n)
    (hn : ∀ q ∈ tags b, 0 ≤ disp q n ∧ (idx q b : Int) + disp q n < 2 ^ 64) :
    ∃ d, ofSize b n = .ok d ∧ Valid d ∧ tags d = tags b ∧ front d = b ∧ extents d = .ok n ∧
      ∀ q ∈ tags b, lo q d = idx q b ∧ (hi q d : Int) = idx q b + disp q n ∧
        ∃ v, extent q d = .ok v ∧ tags v = [q] ∧ disp q v = disp q n := by
  obtain ⟨d, h1, h2, h3⟩ := ofSize_ok hnd ht
  have key : ∀ q ∈ tags b, ∃ x y, get q b = .ok x ∧ get q n = .ok y ∧ get q d = .ok (x, x + y) ∧
      0 ≤ y.toInt ∧ (x.toNat : Int) + y.toInt < 2 ^ 64 ∧ ((x + y).toNat : Int) = x.toNat + y.toInt := by
    intro q hq
    obtain ⟨x, hx⟩ := get_ok_iff_mem_tags.2 hq
    obtain ⟨y, hy⟩ := get_ok_iff_mem_tags.2 (ht ▸ hq)
    have := hn q hq
    rw [idx_ok hx, disp_ok hy] at this
    exact ⟨x, y, hx, hy, h3 q x y hx hy, this.1, this.2, toNat_add_of_range (by omega) this.2⟩
  refine ⟨d, h1, ⟨h2 ▸ hnd, ?_⟩, h2, ?_, ?_, ?_⟩
  · intro q hq
    obtain ⟨x, y, hx, hy, hd, k1, k2, k3⟩ := key q (h2 ▸ hq)
    have := (toInt_range y).2
    rw [len, lo_ok hd, hi_ok hd]; omega
  · refine ext_get' (by rw [front, tags_beg, h2]) (by rw [front, tags_beg, h2]; exact hnd) ?_
    intro q v hv
    have hq : q ∈ tags b := by
      have := mem_tags_of_get hv
      rwa [front, tags_beg, h2] at this
    obtain ⟨x, y, hx, hy, hd, _⟩ := key q hq
    rw [front, get_beg_ok hd] at hv
    rw [hx, hv]
  · obtain ⟨m, g1, g2, g3⟩ := extents_ok d
    rw [g1]; congr 1
    refine ext_get' (by rw [g2, h2, ht]) (by rw [g2, h2]; exact hnd) ?_
    intro q v hv
    have hq : q ∈ tags b := by
      have := mem_tags_of_get hv
      rwa [g2, h2] at this
    obtain ⟨x, y, hx, hy, hd, _⟩ := key q hq
    rw [g3 q _ _ hd] at hv
    rw [hy, ← hv, BitVec.add_comm, BitVec.add_sub_cancel]
  · intro q hq
    obtain ⟨x, y, hx, hy, hd, k1, k2, k3⟩ := key q hq
    refine ⟨by rw [lo_ok hd, idx_ok hx], by rw [hi_ok hd, idx_ok hx, disp_ok hy, k3], _,
      extent_ok hd, rfl, ?_⟩
    rw [disp_ok hy, BitVec.add_comm, BitVec.add_sub_cancel]
    simp [disp]

/-- `contains`, for any grouping of the coordinates into several elements and any
order of the tags: true exactly when every coordinate is in its half-open range. -/
theorem C05_contains (d : Dom τ) (hd : (tags d).Nodup) (es : List (Elem τ))
    (hp : (es.flatMap tags).Perm (tags d)) :
    ∃ c, contains d es = .ok c ∧
      (c = true ↔ ∀ e ∈ es, ∀ q ∈ tags e, lo q d ≤ idx q e ∧ idx q e < hi q d) := by
  obtain ⟨e, h1, h2, h3⟩ := ofTuples_ok (ownedOnce_of_perm hd hp)
  have hl : d.length = (es.map List.length).sum := by
    rw [← length_tags d]; exact sum_length_of_perm hp
  obtain ⟨c, g1, g2⟩ := contains_iff hd hl h1
  refine ⟨c, g1, g2.trans ?_⟩
  constructor
  · intro h x hx q hq
    have hqd : q ∈ tags d := hp.mem_iff.1 (List.mem_flatMap.2 ⟨x, hx, hq⟩)
    have := h q hqd
    simpa only [idx, h3 q hqd x hx hq] using this
  · intro h q hq
    obtain ⟨x, hx, hqx⟩ := List.mem_flatMap.1 (hp.mem_iff.2 hq)
    have := h x hx q hqx
    simpa only [idx, h3 q hq x hx hqx] using this

/-- `size()` is the product of the extents modulo `2^64`; when that product is
representable it is the number of members, and `empty()`/`operator bool` decide
whether there is a member. -/
theorem C05_size (d : Dom τ) (hd : Valid d) (hc : card d < 2 ^ 64) :
    ∃ s, size d = .ok s ∧ s.toNat = card d ∧
      (∃ l : List (Elem τ), l.Nodup ∧ l.length = s.toNat ∧
        ∀ e, e ∈ l ↔ tags e = tags d ∧ contains d [e] = .ok true) ∧
      (empty d = .ok true ↔ ∀ e, tags e = tags d → contains d [e] = .ok false) ∧
      (empty d = .ok false ↔ ∃ e, tags e = tags d ∧ contains d [e] = .ok true) ∧
      (Dom.toBool d = .ok true ↔ ∃ e, tags e = tags d ∧ contains d [e] = .ok true) := by
  obtain ⟨s, h1, h2⟩ := size_ok d hd
  rw [Nat.mod_eq_of_lt hc] at h2
  have hmem : ∀ e, e ∈ points d ↔ tags e = tags d ∧ contains d [e] = .ok true := by
    intro e
    rw [mem_points hd.1]
    refine and_congr_right fun ht => ?_
    obtain ⟨c, g1, g2⟩ := contains_one hd.1 (e := e) (by rw [SameTags, ht])
    rw [g1, ← g2]; simp
  have hlen : (points d).length = s.toNat := by rw [length_points hd.1, h2]
  have hs0 : s = 0 ↔ points d = [] := by
    rw [← List.length_eq_zero_iff, hlen]
    exact ⟨fun h => by rw [h]; rfl, fun h => BitVec.eq_of_toNat_eq (by simpa using h)⟩
  have hex : points d ≠ [] ↔ ∃ e, tags e = tags d ∧ contains d [e] = .ok true := by
    constructor
    · intro h
      obtain ⟨e, he⟩ := List.exists_mem_of_ne_nil _ h
      exact ⟨e, (hmem e).1 he⟩
    · rintro ⟨e, he⟩ h
      have := (hmem e).2 he
      rw [h] at this; simp at this
  have hemp : empty d = .ok (decide (s = 0)) := by simp [empty, h1]
  refine ⟨s, h1, h2, ⟨points d, nodup_points d, hlen, hmem⟩, ?_, ?_, ?_⟩
  · rw [hemp]
    simp only [Res.ok.injEq, decide_eq_true_eq, hs0]
    constructor
    · intro h e ht
      obtain ⟨c, g1, g2⟩ := contains_one hd.1 (e := e) (by rw [SameTags, ht])
      cases c with
      | false => exact g1
      | true =>
        have := (hmem e).2 ⟨ht, g1⟩
        rw [h] at this; simp at this
    · intro h
      refine Classical.byContradiction fun hne => ?_
      obtain ⟨e, ht, hc⟩ := hex.1 hne
      rw [h e ht] at hc; simp at hc
  · rw [hemp, ← hex]
    simp only [Res.ok.injEq, decide_eq_false_iff_not, hs0, ne_eq]
  · rw [← hex, Dom.toBool, hemp]
    simp only [Res.ok_bind, Res.pure_eq, Res.ok.injEq, Bool.not_eq_true', decide_eq_false_iff_not,
      hs0, ne_eq]

/-- `front()` and `back()` of a domain with at least one point along every
dimension are members and bound every member along every dimension. -/
theorem C05_front_back (d : Dom τ) (hd : Valid d) (hne : ∀ q ∈ tags d, 0 < len q d) :
    ∃ bk, back d = .ok bk ∧ tags bk = tags d ∧ tags (front d) = tags d ∧
      contains d [front d] = .ok true ∧ contains d [bk] = .ok true ∧
      ∀ e, SameTags e d → contains d [e] = .ok true →
        ∀ q ∈ tags d, idx q (front d) ≤ idx q e ∧ idx q e ≤ idx q bk := by
  obtain ⟨bk, h1, h2, h3⟩ := back_ok d hd.1
  have hbk : ∀ q ∈ tags d, idx q bk + 1 = hi q d := by
    intro q hq
    obtain ⟨⟨b, f⟩, h⟩ := get_ok_iff_mem_tags.2 hq
    rw [idx_ok (h3 q b f h), hi_ok h]
    have := hne q hq
    rw [len, lo_ok h, hi_ok h] at this
    rw [BitVec.toNat_sub]
    have := f.isLt
    have e1 : (1 : U64).toNat = 1 := rfl
    rw [e1]; omega
  have hin : ∀ e, SameTags e d → (contains d [e] = .ok true ↔ InBox d e) := by
    intro e hs
    obtain ⟨c, g1, g2⟩ := contains_one hd.1 hs
    rw [g1, ← g2]; simp
  have htf : tags (front d) = tags d := tags_beg d
  refine ⟨bk, h1, h2, htf, ?_, ?_, ?_⟩
  · rw [hin _ (by rw [SameTags, htf])]
    intro q hq
    have := hne q hq
    rw [front, idx_beg]; rw [len] at this; omega
  · rw [hin _ (by rw [SameTags, h2])]
    intro q hq
    have := hne q hq; have := hbk q hq
    rw [len] at *; omega
  · intro e hs he q hq
    rw [hin e hs] at he
    have := he q hq; have := hbk q hq
    rw [front, idx_beg]; omega

/-- Where the product of the extents is not representable the claim about
`empty()` fails in the code: a domain of `2^32 * 2^32` points has size `0`, is
reported empty, and contains its front. -/
theorem C05_size_wraps :
    ∃ d : Dom Char, Valid d ∧ size d = .ok 0 ∧ empty d = .ok true ∧
      contains d [front d] = .ok true := by
  refine ⟨[('x', (0, 0x100000000)), ('y', (0, 0x100000000))], ?_, by decide, by decide, by decide⟩
  refine ⟨by decide, ?_⟩
  intro q hq
  simp only [tags, List.map_cons, List.map_nil, List.mem_cons, List.not_mem_nil, or_false] at hq
  rcases hq with rfl | rfl <;> decide

/-! Non-vacuity. -/
example : ∃ d, ofSize [('x', 5), ('y', 0)] [('x', 2), ('y', 3)] = .ok d ∧ size d = .ok 6 ∧
    contains d [[('y', 2)], [('x', 6)]] = .ok true ∧ contains d [[('x', 7), ('y', 0)]] = .ok false ∧
    back d = .ok [('x', 6), ('y', 2)] := ⟨_, rfl, by decide, by decide, by decide, by decide⟩
example : Valid ([('x', (5, 7)), ('y', (0, 3))] : Dom Char) ∧
    card ([('x', (5, 7)), ('y', (0, 3))] : Dom Char) = 6 := by
  refine ⟨⟨by decide, ?_⟩, by decide⟩
  intro q hq
  simp only [tags, List.map_cons, List.map_nil, List.mem_cons, List.not_mem_nil, or_false] at hq
  rcases hq with rfl | rfl <;> decide

end DDC.Props
