import Verif.Lemmas.StridedOps

/-!
# C07  Positions and elements of a domain are in bijection (strided domains)
-/

namespace DDC.Props

open Tup SDom Spec

variable {τ : Type} [DecidableEq τ]

private theorem disp_ext {v w : Vect τ} (ht : tags v = tags w) (hnd : (tags v).Nodup)
    (h : ∀ q ∈ tags v, disp q v = disp q w) : v = w := by
  refine ext_get' ht hnd ?_
  intro q y hy
  have hq := mem_tags_of_get hy
  obtain ⟨x, hx⟩ := get_ok_iff_mem_tags.2 (ht ▸ hq)
  have := h q hq
  rw [disp_ok hy, disp_ok hx] at this
  rw [hx, BitVec.eq_of_toInt_eq this]

private theorem idx_ext {v w : Elem τ} (ht : tags v = tags w) (hnd : (tags v).Nodup)
    (h : ∀ q ∈ tags v, idx q v = idx q w) : v = w := by
  refine ext_get' ht hnd ?_
  intro q y hy
  have hq := mem_tags_of_get hy
  obtain ⟨x, hx⟩ := get_ok_iff_mem_tags.2 (ht ▸ hq)
  have := h q hq
  rw [idx_ok hy, idx_ok hx] at this
  rw [hx, BitVec.eq_of_toNat_eq this]

/-- `domain(v)` is the element at position `v`: contained, with index
`front + v * stride` along every dimension, and `distance_from_front` of it is `v`. -/
theorem C07_strided_position_to_element (d : SDom τ) (hd : SValid d) (v : Vect τ) (ht : tags v = tags d)
    (hv : ∀ q ∈ tags d, 0 ≤ disp q v ∧ disp q v < count q d) :
    ∃ e, SDom.at' d v = .ok e ∧ tags e = tags d ∧ SDom.contains d [e] = .ok true ∧
      (∀ q ∈ tags d, (idx q e : Int) = first q d + disp q v * step q d) ∧
      SDom.distanceFromFront d [e] = .ok v := by
  have hsafe : ∀ q ∈ tags d, SafeAxis q d := fun q hq => .inl (by have := hv q hq; omega)
  obtain ⟨e, h1, h2, h3⟩ := SDom.at_ok hd ht hv
  have hin : InGrid d e := fun q hq => ⟨disp q v, (hv q hq).1, (hv q hq).2, h3 q hq⟩
  refine ⟨e, h1, h2, ?_, h3, ?_⟩
  · obtain ⟨c, g1, g2⟩ := SDom.contains_one hd hsafe (e := e) (by rw [SameTags, h2])
    rw [g1]; congr 1; exact g2.2 hin
  · obtain ⟨r, r1, r2, r3⟩ := select_ok (qs := tags d) (x := e) (fun q hq => by rw [h2]; exact hq)
    obtain ⟨w, w1, w2, w3⟩ := SDom.distance_ok hd hsafe (es := [e]) (by simp [h2]) r1
      ((inGrid_congr r3).2 hin)
    rw [w1]; congr 1
    refine disp_ext (by rw [w2, ht]) (by rw [w2]; exact hd.1) ?_
    intro q hq
    rw [w2] at hq
    have e1 := (w3 q hq).1
    have e2 := h3 q hq
    have : idx q r = idx q e := by simp only [idx, r3 q hq]
    rw [this, e2] at e1
    exact Int.eq_of_mul_eq_mul_right (a := step q d) (by have := hd.2 q hq; omega) (by omega)

/-- `distance_from_front(e...)` of a contained element, for any grouping of the
coordinates, is a position inside the extents, and `domain(...)` of it is the
element (in the tag order of the domain). -/
theorem C07_strided_element_to_position (d : SDom τ) (hd : SValid d) (hs : ∀ q ∈ tags d, SafeAxis q d)
    (es : List (Elem τ)) (hp : (es.flatMap tags).Perm (tags d)) (hc : SDom.contains d es = .ok true) :
    ∃ v r, SDom.distanceFromFront d es = .ok v ∧ tags v = tags d ∧
      (∀ q ∈ tags d, 0 ≤ disp q v ∧ disp q v < count q d) ∧
      SDom.at' d v = .ok r ∧ tags r = tags d ∧ ∀ e ∈ es, ∀ q ∈ tags e, get q r = get q e := by
  obtain ⟨e, h1, h2, h3⟩ := ofTuples_ok (Dom.ownedOnce_of_perm hd.1 hp)
  obtain ⟨c, g1, g2⟩ := SDom.contains_ok hd hs hp h1
  rw [hc] at g1; injection g1 with g1
  obtain ⟨v, v1, v2, v3⟩ := SDom.distance_ok hd hs hp h1 (g2.1 g1.symm)
  obtain ⟨r, r1, r2, r3⟩ := SDom.at_ok hd v2 (fun q hq => (v3 q hq).2)
  have hre : r = e := by
    refine idx_ext (by rw [r2, h2]) (by rw [r2]; exact hd.1) ?_
    intro q hq
    rw [r2] at hq
    have := r3 q hq; have := (v3 q hq).1
    omega
  refine ⟨v, r, v1, v2, fun q hq => (v3 q hq).2, r1, r2, ?_⟩
  intro x hx q hqx
  rw [hre]
  exact h3 q (hp.mem_iff.1 (List.mem_flatMap.2 ⟨x, hx, hqx⟩)) x hx hqx

/-- An element that is not in a (safe) strided domain makes `distance_from_front` abort. -/
theorem C07_strided_assert (d : SDom τ) (hd : SValid d) (hs : ∀ q ∈ tags d, SafeAxis q d)
    (e : Elem τ) (ht : SameTags e d) (hn : ¬ InGrid d e) : SDom.distanceFromFront d [e] = .abort := by
  obtain ⟨c, g1, g2⟩ := SDom.contains_one hd hs ht
  have hc : c = false := by
    cases c with
    | false => rfl
    | true => exact absurd (g2.1 rfl) hn
  subst hc
  have hl : d.length = (([e] : List (Elem τ)).map List.length).sum := by
    have := ht.length_eq
    simpa using this.symm
  simp only [SDom.distanceFromFront, ← hl, decide_true, Res.guardIll_true, Res.ok_bind, g1, Res.guardAbort_false,
    Res.abort_bind]

/-- Position zero is the front and position `extents - 1` is the back. -/
theorem C07_strided_ends (d : SDom τ) (hd : SValid d) (hne : ∀ q ∈ tags d, 1 ≤ count q d) :
    SDom.at' d (d.map (fun p => (p.1, (0 : I64)))) = .ok (SDom.front d) ∧
    ∀ v, tags v = tags d → (∀ q ∈ tags d, disp q v = count q d - 1) → SDom.at' d v = SDom.back d := by
  constructor
  · have ht : tags (d.map (fun p => (p.1, (0 : I64)))) = tags d := tags_map_snd (fun _ => (0 : I64)) d
    have hz : ∀ q ∈ tags d, disp q (d.map (fun p => (p.1, (0 : I64)))) = 0 := by
      intro q hq
      obtain ⟨b, hb⟩ := get_ok_iff_mem_tags.2 hq
      rw [disp_ok (x := 0) (by rw [get_map_snd q (fun _ => (0 : I64)) d, hb]; rfl)]; rfl
    obtain ⟨e, h1, h2, h3⟩ := SDom.at_ok hd ht (by
      intro q hq; rw [hz q hq]; have := hne q hq; omega)
    rw [h1]; congr 1
    refine idx_ext (by rw [h2, tags_front]) (by rw [h2]; exact hd.1) ?_
    intro q hq
    rw [h2] at hq
    have := h3 q hq
    rw [hz q hq] at this
    obtain ⟨⟨b, n, s⟩, h⟩ := get_ok_iff_mem_tags.2 hq
    rw [idx_ok (get_front_ok h), ← first_ok h]
    omega
  · intro v ht hv
    obtain ⟨e, h1, h2, h3⟩ := SDom.at_ok hd ht (by
      intro q hq; rw [hv q hq]; have := hne q hq; omega)
    obtain ⟨k, k1, k2, k3⟩ := SDom.back_ok d hd
    rw [h1, k1]; congr 1
    refine idx_ext (by rw [h2, k2]) (by rw [h2]; exact hd.1) ?_
    intro q hq
    rw [h2] at hq
    have e1 := h3 q hq; have e2 := k3 q hq (hne q hq)
    rw [hv q hq] at e1
    omega

/-! Non-vacuity. -/
example : SDom.at' ([('x', (3, 4, 5)), ('y', (1, 4, 1))] : SDom Char) [('x', 2), ('y', 0)]
      = .ok [('x', 13), ('y', 1)] ∧
    SDom.distanceFromFront ([('x', (3, 4, 5)), ('y', (1, 4, 1))] : SDom Char) [[('y', 1)], [('x', 13)]]
      = .ok [('x', 2), ('y', 0)] := by decide

end DDC.Props
