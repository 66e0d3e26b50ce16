import Verif.Model.View
import Verif.Lemmas.Sampling
import Verif.Props.C15
import Verif.Props.C16
import Verif.Props.C18
import Verif.Props.C19
import Verif.Props.C27

/-!
# Chunks on a product of two intervals
-/

namespace DDC.Grid2

open Tup Spec Props
open One (seg el vec)

set_option linter.unusedSectionVars false

variable {τ : Type} [DecidableEq τ]

/-- The product of `[a, b)` and `[c, d)`. -/
def seg2 (tx ty : τ) (a b c d : Nat) : Dom τ :=
  [(tx, (BitVec.ofNat 64 a, BitVec.ofNat 64 b)), (ty, (BitVec.ofNat 64 c, BitVec.ofNat 64 d))]

/-- The point with indices `i` and `j`. -/
def pt (tx ty : τ) (i j : Nat) : Elem τ := [(tx, BitVec.ofNat 64 i), (ty, BitVec.ofNat 64 j)]

theorem toNat_small {n : Nat} (h : n < 2 ^ 63) : (BitVec.ofNat 64 n).toNat = n := by
  rw [BitVec.toNat_ofNat]; omega

theorem ofNat_inj {n m : Nat} (hn : n < 2 ^ 63) (hm : m < 2 ^ 63) (h : BitVec.ofNat 64 n = BitVec.ofNat 64 m) : n = m := by
  have := congrArg BitVec.toNat h
  rwa [toNat_small hn, toNat_small hm] at this

theorem seg2_valid {tx ty : τ} (hxy : tx ≠ ty) {a b c d : Nat} (h1 : a ≤ b) (h2 : b < 2 ^ 63) (h3 : c ≤ d) (h4 : d < 2 ^ 63) :
    Valid (seg2 tx ty a b c d) := by
  refine ⟨by simp [seg2, hxy], fun q hq => ?_⟩
  simp only [seg2, tags_cons, tags_nil, List.mem_cons, List.not_mem_nil, or_false] at hq
  rcases hq with rfl | rfl
  · rw [len, lo, hi, seg2, get_cons, if_pos rfl]
    simp only
    rw [toNat_small (by omega), toNat_small (by omega)]; omega
  · rw [len, lo, hi, seg2, get_cons, if_neg hxy.symm, get_cons, if_pos rfl]
    simp only
    rw [toNat_small (by omega), toNat_small (by omega)]; omega

theorem lo_x {tx ty : τ} {a b c d : Nat} (h : a < 2 ^ 63) : lo tx (seg2 tx ty a b c d) = a := by
  rw [lo, seg2, get_cons, if_pos rfl]; exact toNat_small h
theorem hi_x {tx ty : τ} {a b c d : Nat} (h : b < 2 ^ 63) : hi tx (seg2 tx ty a b c d) = b := by
  rw [hi, seg2, get_cons, if_pos rfl]; exact toNat_small h
theorem lo_y {tx ty : τ} (hxy : tx ≠ ty) {a b c d : Nat} (h : c < 2 ^ 63) : lo ty (seg2 tx ty a b c d) = c := by
  rw [lo, seg2, get_cons, if_neg hxy.symm, get_cons, if_pos rfl]; exact toNat_small h
theorem hi_y {tx ty : τ} (hxy : tx ≠ ty) {a b c d : Nat} (h : d < 2 ^ 63) : hi ty (seg2 tx ty a b c d) = d := by
  rw [hi, seg2, get_cons, if_neg hxy.symm, get_cons, if_pos rfl]; exact toNat_small h

theorem card_seg2 {tx ty : τ} (hxy : tx ≠ ty) {a b c d : Nat} (h1 : a < 2 ^ 63) (h2 : b < 2 ^ 63) (h3 : c < 2 ^ 63)
    (h4 : d < 2 ^ 63) : card (seg2 tx ty a b c d) = (b - a) * (d - c) := by
  rw [card]
  show List.prod [len tx (seg2 tx ty a b c d), len ty (seg2 tx ty a b c d)] = _
  rw [len, len, lo_x h1, hi_x h2, lo_y hxy h3, hi_y hxy h4]; simp

theorem inBox2 {tx ty : τ} (hxy : tx ≠ ty) {a b c d : Nat} (h1 : a ≤ b) (h2 : b < 2 ^ 63) (h3 : c ≤ d) (h4 : d < 2 ^ 63)
    {e : Elem τ} (ht : tags e = [tx, ty]) :
    InBox (seg2 tx ty a b c d) e ↔ ∃ i j, a ≤ i ∧ i < b ∧ c ≤ j ∧ j < d ∧ e = pt tx ty i j := by
  match e, ht with
  | [(t, x), (u, y)], ht =>
    obtain ⟨rfl, rfl⟩ : t = tx ∧ u = ty := by simpa using ht
    have hx : idx t [(t, x), (u, y)] = x.toNat := by rw [idx, get_cons, if_pos rfl]
    have hy : idx u [(t, x), (u, y)] = y.toNat := by rw [idx, get_cons, if_neg hxy.symm, get_cons, if_pos rfl]
    constructor
    · intro h
      have hX := h t (by simp [seg2])
      have hY := h u (by simp [seg2])
      rw [lo_x (by omega), hi_x (by omega), hx] at hX
      rw [lo_y hxy (by omega), hi_y hxy (by omega), hy] at hY
      exact ⟨x.toNat, y.toNat, hX.1, hX.2, hY.1, hY.2, by simp [pt]⟩
    · rintro ⟨i, j, g1, g2, g3, g4, g5⟩ q hq
      simp only [pt, List.cons.injEq, Prod.mk.injEq, true_and, and_true] at g5
      obtain ⟨rfl, rfl⟩ := g5
      simp only [seg2, tags_cons, tags_nil, List.mem_cons, List.not_mem_nil, or_false] at hq
      rcases hq with rfl | rfl
      · rw [lo_x (by omega), hi_x (by omega), hx, toNat_small (by omega)]; omega
      · rw [lo_y hxy (by omega), hi_y hxy (by omega), hy, toNat_small (by omega)]; omega

theorem inBox1 {t : τ} {c d : Nat} (h3 : c ≤ d) (h4 : d < 2 ^ 63) {e : Elem τ} (ht : tags e = [t]) :
    InBox (seg t c d) e ↔ ∃ j, c ≤ j ∧ j < d ∧ e = el t j := by
  match e, ht with
  | [(u, y)], ht =>
    obtain rfl : u = t := by simpa using ht
    have hy : idx u [(u, y)] = y.toNat := by rw [idx, get_cons, if_pos rfl]
    constructor
    · intro h
      have hY := h u (by simp [seg])
      rw [seg_lo (by omega), seg_hi (by omega), hy] at hY
      exact ⟨y.toNat, hY.1, hY.2, by simp [el]⟩
    · rintro ⟨j, g3, g4, g5⟩ q hq
      simp only [el, List.cons.injEq, Prod.mk.injEq, true_and, and_true] at g5
      subst g5
      simp only [seg, tags_cons, tags_nil, List.mem_cons, List.not_mem_nil, or_false] at hq
      subst hq
      rw [seg_lo (by omega), seg_hi (by omega), hy, toNat_small (by omega)]; omega

/-! ## Charts -/

/-- `s` is a span on a product of intervals whose element `(i, j)` is in cell `pos i j`. -/
structure Chart2 (tx ty : τ) (s : Span (Dom τ)) (a b c d : Nat) (pos : Nat → Nat → Nat) : Prop where
  dom : s.dom = seg2 tx ty a b c d
  bx : a ≤ b ∧ b < 2 ^ 63
  byy : c ≤ d ∧ d < 2 ^ 63
  wf : WF Dom.spanOps s
  cell : ∀ i j, a ≤ i → i < b → c ≤ j → j < d → s.access Dom.spanOps [pt tx ty i j] = .ok (pos i j)

/-- The same in one dimension. -/
structure Chart1 (t : τ) (s : Span (Dom τ)) (c d : Nat) (pos : Nat → Nat) : Prop where
  dom : s.dom = seg t c d
  bd : c ≤ d ∧ d < 2 ^ 63
  wf : WF Dom.spanOps s
  cell : ∀ j, c ≤ j → j < d → s.access Dom.spanOps [el t j] = .ok (pos j)

section charts

variable {tx ty t : τ} {s : Span (Dom τ)} {a b c d : Nat} {pos : Nat → Nat → Nat} {pos1 : Nat → Nat}

theorem Chart2.valid (hxy : tx ≠ ty) (h : Chart2 tx ty s a b c d pos) : Valid s.dom := by
  rw [h.dom]; exact seg2_valid hxy h.bx.1 h.bx.2 h.byy.1 h.byy.2

theorem Chart1.valid (h : Chart1 t s c d pos1) : Valid s.dom := by
  rw [h.dom]; exact (seg_valid h.bd.1 h.bd.2).2

theorem tags_seg2 : tags (seg2 tx ty a b c d) = [tx, ty] := rfl
theorem tags_seg : tags (seg t c d) = [t] := rfl

theorem access_inv {e : Elem τ} {p : Nat} (hV : Valid s.dom) (ht : tags e = tags s.dom)
    (h : s.access Dom.spanOps [e] = .ok p) : InBox s.dom e := by
  by_contra hn
  have hta : tags (axes s.dom) = tags s.dom := tags_axes _
  rw [(spanKind_dom.access_not_mem hV (es := [e]) (e := e) (by simp [hta, ht])
    (by rw [hta]; exact ofTuples_one hV.1 ht) (fun h => hn ((cart_inBox hV ht).1 h))).2] at h
  cases h

/-- Any grouping of the coordinates reaches the same cell. -/
theorem Chart2.access (hxy : tx ≠ ty) (h : Chart2 tx ty s a b c d pos) {i j : Nat} (h1 : a ≤ i) (h2 : i < b) (h3 : c ≤ j)
    (h4 : j < d) : s.access Dom.spanOps [el tx i, el ty j] = .ok (pos i j) := by
  have hV := h.valid hxy
  have hta : tags (axes s.dom) = [tx, ty] := by rw [tags, tags_axes, h.dom]; rfl
  have hin : pt tx ty i j ∈ cart (axes s.dom) := by
    rw [cart_inBox hV (by rw [h.dom]; rfl), h.dom]
    exact (inBox2 hxy h.bx.1 h.bx.2 h.byy.1 h.byy.2 rfl).2 ⟨i, j, h1, h2, h3, h4, rfl⟩
  have hnd : [tx, ty].Nodup := by simp [hxy]
  have e1 : ofTuples (tags (axes s.dom)) [el tx i, el ty j] = .ok (pt tx ty i j) := by
    rw [hta]
    refine ofTuples_regroup hnd (by simp [el]) rfl ?_
    intro x hx q hq
    simp only [List.mem_cons, List.not_mem_nil, or_false] at hx
    rcases hx with rfl | rfl <;>
      simp only [el, tags_cons, tags_nil, List.mem_cons, List.not_mem_nil, or_false] at hq <;> subst hq
    · rw [el, pt, get_cons, if_pos rfl, get_cons, if_pos rfl]
    · rw [el, pt, get_cons, if_pos rfl, get_cons, if_neg hxy.symm, get_cons, if_pos rfl]
  have e2 : ofTuples (tags (axes s.dom)) [pt tx ty i j] = .ok (pt tx ty i j) := by
    rw [hta]; exact ofTuples_one hnd rfl
  obtain ⟨v, _, _, _, v4, _, r1, _⟩ := spanKind_dom.access_mem hV h.wf (by rw [hta]; simp [el]) e1 hin
  obtain ⟨w, _, _, _, w4, _, r2, _⟩ := spanKind_dom.access_mem hV h.wf (es := [pt tx ty i j])
    (by rw [hta]; simp [pt]) e2 hin
  rw [r1, picks_unique (spanKind_dom.sorted _ hV) v4 w4, ← r2]
  exact h.cell i j h1 h2 h3 h4

theorem Chart2.lt_cells (hxy : tx ≠ ty) (h : Chart2 tx ty s a b c d pos) {i j : Nat} (h1 : a ≤ i) (h2 : i < b) (h3 : c ≤ j)
    (h4 : j < d) : pos i j < s.md.cells := by
  have hV := h.valid hxy
  have hta : tags (axes s.dom) = [tx, ty] := by rw [tags, tags_axes, h.dom]; rfl
  have hin : pt tx ty i j ∈ cart (axes s.dom) := by
    rw [cart_inBox hV (by rw [h.dom]; rfl), h.dom]
    exact (inBox2 hxy h.bx.1 h.bx.2 h.byy.1 h.byy.2 rfl).2 ⟨i, j, h1, h2, h3, h4, rfl⟩
  obtain ⟨w, _, _, _, w4, _, r2, r3⟩ := spanKind_dom.access_mem hV h.wf (es := [pt tx ty i j])
    (by rw [hta]; simp [pt]) (by rw [hta]; exact ofTuples_one (by simp [hxy]) rfl) hin
  rw [h.cell i j h1 h2 h3 h4] at r2
  rw [Res.ok.inj r2]; exact r3

theorem get_seg2_x : get tx (seg2 tx ty a b c d) = .ok (BitVec.ofNat 64 a, BitVec.ofNat 64 b) := by
  rw [seg2, get_cons, if_pos rfl]
theorem get_seg2_y (hxy : tx ≠ ty) : get ty (seg2 tx ty a b c d) = .ok (BitVec.ofNat 64 c, BitVec.ofNat 64 d) := by
  rw [seg2, get_cons, if_neg hxy.symm, get_cons, if_pos rfl]
theorem get_seg : get t (seg t c d) = .ok (BitVec.ofNat 64 c, BitVec.ofNat 64 d) := by
  rw [seg, get_cons, if_pos rfl]

theorem eq_seg2 (hxy : tx ≠ ty) {o : Dom τ} (ht : tags o = [tx, ty])
    (hx : get tx o = .ok (BitVec.ofNat 64 a, BitVec.ofNat 64 b)) (hy : get ty o = .ok (BitVec.ofNat 64 c, BitVec.ofNat 64 d)) :
    o = seg2 tx ty a b c d := by
  refine ext_get ht (by rw [ht]; simp [hxy]) ?_
  intro q hq
  rw [ht] at hq
  simp only [List.mem_cons, List.not_mem_nil, or_false] at hq
  rcases hq with rfl | rfl
  · rw [hx, get_seg2_x]
  · rw [hy, get_seg2_y hxy]

theorem eq_seg {o : Dom τ} (ht : tags o = [t]) (hx : get t o = .ok (BitVec.ofNat 64 c, BitVec.ofNat 64 d)) : o = seg t c d := by
  refine ext_get ht (by rw [ht]; simp) ?_
  intro q hq
  rw [ht] at hq
  simp only [List.mem_cons, List.not_mem_nil, or_false] at hq
  subst hq
  rw [hx, get_seg]

/-- Restriction to a smaller product. -/
theorem Chart2.restrict (hxy : tx ≠ ty) (h : Chart2 tx ty s a b c d pos) {a' b' c' d' : Nat} (h1 : a ≤ a') (h2 : a' ≤ b')
    (h3 : b' ≤ b) (h4 : c ≤ c') (h5 : c' ≤ d') (h6 : d' ≤ d) :
    ∃ s', s.restrict (seg2 tx ty a' b' c' d') = .ok s' ∧ s'.md.cells = s.md.cells ∧ Chart2 tx ty s' a' b' c' d' pos := by
  have hb := h.bx; have hd := h.byy
  have hV := h.valid hxy
  have ho := seg2_valid hxy (a := a') (b := b') (c := c') (d := d') h2 (by omega) h5 (by omega)
  have hin : Inside (seg2 tx ty a' b' c' d') s.dom := by
    rw [h.dom]
    intro q hq
    rw [tags_seg2] at hq
    simp only [List.mem_cons, List.not_mem_nil, or_false] at hq
    rcases hq with rfl | rfl
    · rw [lo_x (by omega), lo_x (by omega), hi_x (by omega), hi_x (by omega)]; omega
    · rw [lo_y hxy (by omega), lo_y hxy (by omega), hi_y hxy (by omega), hi_y hxy (by omega)]; omega
  have hs : ∀ q ∈ tags (seg2 tx ty a' b' c' d'), q ∈ tags s.dom := by
    intro q hq; rw [h.dom]; exact hq
  obtain ⟨s', r1, r2, r3, r4, r5, r6⟩ := restrict_ok hV h.wf ho hs hin
  obtain ⟨g1, g2⟩ := restrict_get hV.1 r2
  have hdom : s'.dom = seg2 tx ty a' b' c' d' := by
    refine eq_seg2 hxy (by rw [g1, h.dom]; rfl) ?_ ?_
    · rw [g2 tx (by rw [h.dom]; simp [tags_seg2]), if_pos (by simp [tags_seg2]), get_seg2_x]
    · rw [g2 ty (by rw [h.dom]; simp [tags_seg2]), if_pos (by simp [tags_seg2]), get_seg2_y hxy]
  refine ⟨s', r1, r5, hdom, ⟨h2, by omega⟩, ⟨h5, by omega⟩, r4, ?_⟩
  intro i j g1 g2 g3 g4
  rw [r6 [pt tx ty i j] (pt tx ty i j) (by rw [h.dom]; simp [pt, tags_seg2])
    (by rw [h.dom]; exact ofTuples_one (by simp [tags_seg2, hxy]) rfl)
    (by rw [hdom]; exact (inBox2 hxy h2 (by omega) h5 (by omega) rfl).2 ⟨i, j, g1, g2, g3, g4, rfl⟩)]
  exact h.cell i j (by omega) (by omega) (by omega) (by omega)

/-- Restriction of the first dimension. -/
theorem Chart2.restrict_x (hxy : tx ≠ ty) (h : Chart2 tx ty s a b c d pos) {a' b' : Nat} (h1 : a ≤ a') (h2 : a' ≤ b')
    (h3 : b' ≤ b) :
    ∃ s', s.restrict (seg tx a' b') = .ok s' ∧ s'.md.cells = s.md.cells ∧ Chart2 tx ty s' a' b' c d pos := by
  have hb := h.bx; have hd := h.byy
  have hV := h.valid hxy
  have ho := (seg_valid (t := tx) h2 (show b' < 2 ^ 63 by omega)).2
  have hin : Inside (seg tx a' b') s.dom := by
    rw [h.dom]
    intro q hq
    rw [tags_seg] at hq
    simp only [List.mem_cons, List.not_mem_nil, or_false] at hq
    subst hq
    rw [lo_x (by omega), seg_lo (by omega), hi_x (by omega), seg_hi (by omega)]; omega
  have hs : ∀ q ∈ tags (seg tx a' b'), q ∈ tags s.dom := by
    intro q hq; rw [h.dom]; rw [tags_seg] at hq; rw [tags_seg2]; simp at hq; simp [hq]
  obtain ⟨s', r1, r2, r3, r4, r5, r6⟩ := restrict_ok hV h.wf ho hs hin
  obtain ⟨g1, g2⟩ := restrict_get hV.1 r2
  have hdom : s'.dom = seg2 tx ty a' b' c d := by
    refine eq_seg2 hxy (by rw [g1, h.dom]; rfl) ?_ ?_
    · rw [g2 tx (by rw [h.dom]; simp [tags_seg2]), if_pos (by simp [tags_seg]), get_seg]
    · rw [g2 ty (by rw [h.dom]; simp [tags_seg2]), if_neg (by simp [tags_seg, hxy.symm]), h.dom, get_seg2_y hxy]
  refine ⟨s', r1, r5, hdom, ⟨h2, by omega⟩, hd, r4, ?_⟩
  intro i j g1 g2 g3 g4
  rw [r6 [pt tx ty i j] (pt tx ty i j) (by rw [h.dom]; simp [pt, tags_seg2])
    (by rw [h.dom]; exact ofTuples_one (by simp [tags_seg2, hxy]) rfl)
    (by rw [hdom]; exact (inBox2 hxy h2 (by omega) hd.1 hd.2 rfl).2 ⟨i, j, g1, g2, g3, g4, rfl⟩)]
  exact h.cell i j (by omega) (by omega) (by omega) (by omega)

/-- Restriction in one dimension. -/
theorem Chart1.restrict (h : Chart1 t s c d pos1) {c' d' : Nat} (h1 : c ≤ c') (h2 : c' ≤ d') (h3 : d' ≤ d) :
    ∃ s', s.restrict (seg t c' d') = .ok s' ∧ s'.md.cells = s.md.cells ∧ Chart1 t s' c' d' pos1 := by
  have hd := h.bd
  have hV := h.valid
  have ho := (seg_valid (t := t) h2 (show d' < 2 ^ 63 by omega)).2
  have hin : Inside (seg t c' d') s.dom := by
    rw [h.dom]
    intro q hq
    rw [tags_seg] at hq
    simp only [List.mem_cons, List.not_mem_nil, or_false] at hq
    subst hq
    rw [seg_lo (by omega), seg_lo (by omega), seg_hi (by omega), seg_hi (by omega)]; omega
  have hs : ∀ q ∈ tags (seg t c' d'), q ∈ tags s.dom := by
    intro q hq; rw [h.dom]; exact hq
  obtain ⟨s', r1, r2, r3, r4, r5, r6⟩ := restrict_ok hV h.wf ho hs hin
  obtain ⟨g1, g2⟩ := restrict_get hV.1 r2
  have hdom : s'.dom = seg t c' d' := by
    refine eq_seg (by rw [g1, h.dom]; rfl) ?_
    rw [g2 t (by rw [h.dom]; simp [tags_seg]), if_pos (by simp [tags_seg]), get_seg]
  refine ⟨s', r1, r5, hdom, ⟨h2, by omega⟩, r4, ?_⟩
  intro j g3 g4
  rw [r6 [el t j] (el t j) (by rw [h.dom]; simp [el, tags_seg])
    (by rw [h.dom]; exact ofTuples_one (by simp [tags_seg]) rfl)
    (by rw [hdom]; exact (inBox1 h2 (by omega) rfl).2 ⟨j, g3, g4, rfl⟩)]
  exact h.cell j (by omega) (by omega)

theorem mem_axis {i b f : Nat} (h1 : b ≤ i) (h2 : i < f) (h3 : f < 2 ^ 63) :
    (BitVec.ofNat 64 i) ∈ axis (BitVec.ofNat 64 b) (BitVec.ofNat 64 f) := by
  have h : el () i ∈ cart (axes (seg () b f)) :=
    (cart_inBox (seg_valid (by omega) h3).2 rfl).2 ((inBox1 (by omega) h3 rfl).2 ⟨i, h1, h2, rfl⟩)
  obtain ⟨_, g⟩ := (mem_cart_iff (ax := axes (seg () b f)) (by simp [axes, seg])).1 h
  refine g () _ _ ?_ ?_
  · rw [el, get_cons, if_pos rfl]
  · rw [axes, seg, List.map_cons, get_cons, if_pos rfl]

/-- Slicing the first dimension. -/
theorem Chart2.slice_x (hxy : tx ≠ ty) (h : Chart2 tx ty s a b c d pos) {i : Nat} (h1 : a ≤ i) (h2 : i < b) :
    ∃ s', s.slice Dom.spanOps (el tx i) = .ok s' ∧ s'.md.cells = s.md.cells ∧ Chart1 ty s' c d (pos i) := by
  have hb := h.bx; have hd := h.byy
  have hV := h.valid hxy
  have hta : tags (axes s.dom) = [tx, ty] := by rw [tags, tags_axes, h.dom]; rfl
  have hrem : TypeSeq.remove (tags (axes s.dom)) (tags (el tx i)) = [ty] := by
    rw [hta, TypeSeq.remove_eq]; simp [el, hxy.symm]
  obtain ⟨s', r1, r2, r3, r4, r5, r6⟩ := spanKind_dom.slice_ok hV h.wf (e := el tx i) (by simp [el])
    (by rw [hta]; simp [el])
    (by
      intro q x l hx hl
      obtain rfl : q = tx := by
        by_contra hn
        rw [el, get_cons, if_neg hn] at hx; cases hx
      rw [el, get_cons, if_pos rfl] at hx
      obtain rfl := Res.ok.inj hx
      rw [h.dom, axes, seg2, List.map_cons, get_cons, if_pos rfl] at hl
      obtain rfl := Res.ok.inj hl
      exact mem_axis h1 h2 hb.2)
  rw [hrem] at r4 r6
  have hdom : s'.dom = seg ty c d := by
    obtain ⟨w, w1, w2, w3⟩ := Dom.ofDomains_ok (qs := [ty]) (ds := [s.dom]) (by simp) (by simpa using hV.1)
      (fun q hq => Dom.ownedOnce_singleton (by rw [h.dom, tags_seg2]; simp at hq; simp [hq]))
    have r4 : Dom.ofDomains [ty] [s.dom] = .ok s'.dom := r4
    rw [w1] at r4
    obtain rfl := Res.ok.inj r4
    refine eq_seg w2 ?_
    rw [w3 ty (by simp) s.dom (by simp) (by rw [h.dom]; simp [tags_seg2]), h.dom, get_seg2_y hxy]
  refine ⟨s', r1, r5, hdom, hd, r3, ?_⟩
  intro j g1 g2
  rw [r6 [el ty j] (by simp [el])]
  exact h.access hxy h1 h2 g1 g2

/-- Slicing the second dimension. -/
theorem Chart2.slice_y (hxy : tx ≠ ty) (h : Chart2 tx ty s a b c d pos) {j : Nat} (h1 : c ≤ j) (h2 : j < d) :
    ∃ s', s.slice Dom.spanOps (el ty j) = .ok s' ∧ s'.md.cells = s.md.cells ∧ Chart1 tx s' a b (fun i => pos i j) := by
  have hb := h.bx; have hd := h.byy
  have hV := h.valid hxy
  have hta : tags (axes s.dom) = [tx, ty] := by rw [tags, tags_axes, h.dom]; rfl
  have hrem : TypeSeq.remove (tags (axes s.dom)) (tags (el ty j)) = [tx] := by
    rw [hta, TypeSeq.remove_eq]; simp [el, hxy]
  obtain ⟨s', r1, r2, r3, r4, r5, r6⟩ := spanKind_dom.slice_ok hV h.wf (e := el ty j) (by simp [el])
    (by rw [hta]; simp [el])
    (by
      intro q x l hx hl
      obtain rfl : q = ty := by
        by_contra hn
        rw [el, get_cons, if_neg hn] at hx; cases hx
      rw [el, get_cons, if_pos rfl] at hx
      obtain rfl := Res.ok.inj hx
      rw [h.dom, axes, seg2, List.map_cons, List.map_cons, get_cons, if_neg hxy.symm, get_cons, if_pos rfl] at hl
      obtain rfl := Res.ok.inj hl
      exact mem_axis h1 h2 hd.2)
  rw [hrem] at r4 r6
  have hdom : s'.dom = seg tx a b := by
    obtain ⟨w, w1, w2, w3⟩ := Dom.ofDomains_ok (qs := [tx]) (ds := [s.dom]) (by simp) (by simpa using hV.1)
      (fun q hq => Dom.ownedOnce_singleton (by rw [h.dom, tags_seg2]; simp at hq; simp [hq]))
    have r4 : Dom.ofDomains [tx] [s.dom] = .ok s'.dom := r4
    rw [w1] at r4
    obtain rfl := Res.ok.inj r4
    refine eq_seg w2 ?_
    rw [w3 tx (by simp) s.dom (by simp) (by rw [h.dom]; simp [tags_seg2]), h.dom, get_seg2_x]
  refine ⟨s', r1, r5, hdom, hb, r3, ?_⟩
  intro i g1 g2
  rw [r6 [el tx i] (by simp [el])]
  have e1 : s.access Dom.spanOps [el ty j, el tx i] = s.access Dom.spanOps [pt tx ty i j] := by
    have hnd : [tx, ty].Nodup := by simp [hxy]
    have hin : pt tx ty i j ∈ cart (axes s.dom) := by
      rw [cart_inBox hV (by rw [h.dom]; rfl), h.dom]
      exact (inBox2 hxy hb.1 hb.2 hd.1 hd.2 rfl).2 ⟨i, j, g1, g2, h1, h2, rfl⟩
    have hp : (([el ty j, el tx i] : List (Elem τ)).flatMap tags).Perm [tx, ty] := by
      simpa [el] using List.Perm.swap tx ty []
    have e1 : ofTuples (tags (axes s.dom)) [el ty j, el tx i] = .ok (pt tx ty i j) := by
      rw [hta]
      refine ofTuples_regroup hnd hp rfl ?_
      intro x hx q hq
      simp only [List.mem_cons, List.not_mem_nil, or_false] at hx
      rcases hx with rfl | rfl <;>
        simp only [el, tags_cons, tags_nil, List.mem_cons, List.not_mem_nil, or_false] at hq <;> subst hq
      · rw [el, pt, get_cons, if_pos rfl, get_cons, if_neg hxy.symm, get_cons, if_pos rfl]
      · rw [el, pt, get_cons, if_pos rfl, get_cons, if_pos rfl]
    have e2 : ofTuples (tags (axes s.dom)) [pt tx ty i j] = .ok (pt tx ty i j) := by
      rw [hta]; exact ofTuples_one hnd rfl
    obtain ⟨v, _, _, _, v4, _, r1, _⟩ := spanKind_dom.access_mem hV h.wf (by rw [hta]; exact hp) e1 hin
    obtain ⟨w, _, _, _, w4, _, r2, _⟩ := spanKind_dom.access_mem hV h.wf (es := [pt tx ty i j])
      (by rw [hta]; simp [pt]) e2 hin
    rw [r1, picks_unique (spanKind_dom.sorted _ hV) v4 w4, ← r2]
  rw [e1]
  exact h.cell i j g1 g2 h1 h2

/-- A new chunk on a product of intervals. -/
theorem chart_ofDomain (hxy : tx ≠ ty) (h1 : a ≤ b) (h2 : b < 2 ^ 63) (h3 : c ≤ d) (h4 : d < 2 ^ 63)
    (hc : (b - a) * (d - c) < 2 ^ 64) :
    ∃ (s : Span (Dom τ)) (pos : Nat → Nat → Nat), Span.ofDomain Dom.spanOps (seg2 tx ty a b c d) = .ok s ∧
      s.md.cells = (b - a) * (d - c) ∧ Chart2 tx ty s a b c d pos ∧
      ∀ i j i' j', a ≤ i → i < b → c ≤ j → j < d → a ≤ i' → i' < b → c ≤ j' → j' < d → pos i j = pos i' j' →
        i = i' ∧ j = j' := by
  have hV := seg2_valid hxy h1 h2 h3 h4
  have hcard : card (seg2 tx ty a b c d) = (b - a) * (d - c) := card_seg2 hxy (by omega) h2 (by omega) h4
  have hc' : ((axes (seg2 tx ty a b c d)).map (fun a => a.2.length)).prod < 2 ^ 64 := by
    rw [← card_eq hV.1, hcard]; exact hc
  obtain ⟨s, s1, s2, s3, s4, s5, _⟩ := chunk_of spanKind_dom hV hc'
  have hin : ∀ i j, a ≤ i → i < b → c ≤ j → j < d → ∃ p, s.access Dom.spanOps [pt tx ty i j] = .ok p := by
    intro i j g1 g2 g3 g4
    have hbox : InBox s.dom (pt tx ty i j) := by
      rw [s2]; exact (inBox2 hxy h1 h2 h3 h4 rfl).2 ⟨i, j, g1, g2, g3, g4, rfl⟩
    have hVs : Valid s.dom := by rw [s2]; exact hV
    have hts : tags (pt tx ty i j) = tags s.dom := by rw [s2]; rfl
    obtain ⟨p, p1, _⟩ := s5.inside (pt tx ty i j) hts
      ((mem_cart_axes hVs _).1 ((cart_inBox hVs hts).2 hbox)).2
    exact ⟨p, p1⟩
  let pos : Nat → Nat → Nat := fun i j => match s.access Dom.spanOps [pt tx ty i j] with | .ok p => p | _ => 0
  have hpos : ∀ i j, a ≤ i → i < b → c ≤ j → j < d → s.access Dom.spanOps [pt tx ty i j] = .ok (pos i j) := by
    intro i j g1 g2 g3 g4
    obtain ⟨p, hp⟩ := hin i j g1 g2 g3 g4
    simp only [pos, hp]
  refine ⟨s, pos, s1, by rw [s3, ← card_eq hV.1, hcard], ⟨s2, ⟨h1, h2⟩, ⟨h3, h4⟩, s4, hpos⟩, ?_⟩
  intro i j i' j' g1 g2 g3 g4 g5 g6 g7 g8 he
  have := s5.injective (pt tx ty i j) (pt tx ty i' j') (pos i j) (by rw [s2]; rfl) (by rw [s2]; rfl)
    (hpos i j g1 g2 g3 g4) (by rw [he]; exact hpos i' j' g5 g6 g7 g8)
  simp only [pt, List.cons.injEq, Prod.mk.injEq, true_and, and_true] at this
  exact ⟨ofNat_inj (by omega) (by omega) this.1, ofNat_inj (by omega) (by omega) this.2⟩

theorem Chart1.lt_cells (h : Chart1 t s c d pos1) {j : Nat} (h3 : c ≤ j) (h4 : j < d) : pos1 j < s.md.cells := by
  have hV := h.valid
  have hta : tags (axes s.dom) = [t] := by rw [tags, tags_axes, h.dom]; rfl
  have hin : el t j ∈ cart (axes s.dom) := by
    rw [cart_inBox hV (by rw [h.dom]; rfl), h.dom]
    exact (inBox1 h.bd.1 h.bd.2 rfl).2 ⟨j, h3, h4, rfl⟩
  obtain ⟨w, _, _, _, w4, _, r2, r3⟩ := spanKind_dom.access_mem hV h.wf (es := [el t j])
    (by rw [hta]; simp [el]) (by rw [hta]; exact ofTuples_one (by simp) rfl) hin
  rw [h.cell j h3 h4] at r2
  rw [Res.ok.inj r2]; exact r3

end charts

/-! ## Memory -/

section memory

variable {α : Type}

/-- Buffer `b` has `N` cells. -/
def Alloc (mem : Mem α) (b N : Nat) : Prop := ∃ l, mem[b]? = some l ∧ l.length = N

theorem Alloc.isSome {mem : Mem α} {b N : Nat} (h : Alloc mem b N) (p : Nat) : (cell mem b p).isSome ↔ p < N := by
  obtain ⟨l, h1, h2⟩ := h
  rw [cell, h1, Option.bind_some, ← h2]
  simp

theorem alloc_of_cells {mem : Mem α} {b N : Nat} (hN : 0 < N) (h : ∀ p, (cell mem b p).isSome ↔ p < N) : Alloc mem b N := by
  have h0 := (h 0).2 hN
  rw [cell] at h0
  obtain ⟨l, hl⟩ : ∃ l, mem[b]? = some l := by
    cases e : mem[b]? with
    | none => rw [e] at h0; simp at h0
    | some l => exact ⟨l, rfl⟩
  refine ⟨l, hl, ?_⟩
  have h1 := h l.length
  have h2 := h N
  rw [cell, hl, Option.bind_some] at h1 h2
  simp only [List.getElem?_eq_none (Nat.le_refl l.length), Option.isSome_none, Bool.false_eq_true, false_iff, not_lt] at h1
  simp only [lt_self_iff_false, iff_false, Option.isSome_iff_ne_none, ne_eq, not_not, List.getElem?_eq_none_iff] at h2
  omega

theorem Alloc.congr {mem mem' : Mem α} {b N : Nat} (hN : 0 < N) (h : Alloc mem b N)
    (hc : ∀ p, (cell mem' b p).isSome ↔ (cell mem b p).isSome) : Alloc mem' b N :=
  alloc_of_cells hN (fun p => (hc p).trans (h.isSome p))

variable {t : τ} {c d N : Nat} {pd ps : Nat → Nat}

theorem extents_dims {s : Span (Dom τ)} (h : Chart1 t s c d pd) : s.md.dims.map Prod.fst = [BitVec.ofNat 64 (d - c)] := by
  obtain ⟨x, x1, x2⟩ := h.wf.exts
  have : Dom.extents s.dom = .ok x := x1
  rw [h.dom, One.extents_nat t h.bd.1] at this
  rw [x2, ← Res.ok.inj this]; rfl

theorem access1_tags {s : Span (Dom τ)} (h : s.dom = seg t c d) {f : Elem τ} {p : Nat}
    (hp : s.access Dom.spanOps [f] = .ok p) : tags f = tags s.dom := by
  rw [h]
  simp only [Span.access] at hp
  obtain ⟨_, g, hp⟩ := Res.bind_eq_ok.1 hp
  obtain ⟨cc, hc, hp⟩ := Res.bind_eq_ok.1 hp
  have hc : Dom.contains s.dom [f] = .ok cc := hc
  rw [h, Dom.contains] at hc
  obtain ⟨_, g2, hc⟩ := Res.bind_eq_ok.1 hc
  obtain ⟨w, hw, _⟩ := Res.bind_eq_ok.1 hc
  match f with
  | [] => simp [Res.guardIll, seg] at g2
  | [(u, y)] =>
    have hw : ofTuples [t] [[(u, y)]] = .ok w := hw
    by_cases hu : u = t
    · subst hu; rfl
    · simp [ofTuples, take, TypeSeq.contains, TypeSeq.present, Ne.symm hu] at hw
  | _ :: _ :: _ => simp [Res.guardIll, seg] at g2

/-- Copy between two lines of a buffer. -/
theorem copy1 {mem : Mem α} {dst src : View (Dom τ)} (hb : dst.buf = src.buf) (hl : dst.layout = .stride)
    (hl' : src.layout = .stride) (ha : Alloc mem dst.buf N) (hN : dst.span.md.cells = N) (hN' : src.span.md.cells = N)
    (hd : Chart1 t dst.span c d pd) (hs : Chart1 t src.span c d ps) (hcd : c < d)
    (hinj : ∀ i j, c ≤ i → i < d → c ≤ j → j < d → pd i = pd j → i = j)
    (hne : ∀ i j, c ≤ i → i < d → c ≤ j → j < d → pd i ≠ ps j)
    {sched : List (List U64)} (hp : sched.Perm (MDSpan.indices [BitVec.ofNat 64 (d - c)])) :
    ∃ mem', parallelDeepcopy Dom.spanOps Dom.eq sched mem dst src = .ok (mem', dst) ∧ Alloc mem' dst.buf N ∧
      (∀ j, c ≤ j → j < d → cell mem' dst.buf (pd j) = cell mem dst.buf (ps j)) ∧
      (∀ b p, (b = dst.buf → ∀ j, c ≤ j → j < d → p ≠ pd j) → cell mem' b p = cell mem b p) := by
  have hdd := hd.dom
  have hsd := hs.dom
  have hall : ∀ v : View (Dom τ), v.span.dom = seg t c d → ∀ e, tags e = tags v.span.dom → InBox v.span.dom e →
      ∃ j, c ≤ j ∧ j < d ∧ e = el t j := by
    intro v hv e he hb
    rw [hv] at he hb
    exact (inBox1 hd.bd.1 hd.bd.2 he).1 hb
  have hcard : card (seg t c d) < 2 ^ 64 := by
    have : card (seg t c d) = d - c := by
      rw [card]
      show List.prod [len t (seg t c d)] = _
      have := hd.bd
      rw [len, seg_lo (by omega), seg_hi (by omega)]; simp
    have := hd.bd
    omega
  obtain ⟨mem', m1, m2⟩ := C18_contiguous.deepcopy mem dst src sched
    ⟨hd.valid, hd.wf, by rw [hl]; rfl, by obtain ⟨l, h1, h2⟩ := ha; exact ⟨l, h1, by rw [h2, hN]⟩⟩
    ⟨hs.valid, hs.wf, by rw [hl']; rfl, by obtain ⟨l, h1, h2⟩ := ha; exact ⟨l, by rw [← hb]; exact h1, by rw [h2, hN']⟩⟩
    (by
      intro e f p he hf h1 h2
      obtain ⟨i, i1, i2, rfl⟩ := hall dst hdd e he (access_inv hd.valid he h1)
      obtain ⟨j, j1, j2, rfl⟩ := hall dst hdd f hf (access_inv hd.valid hf h2)
      rw [hd.cell i i1 i2] at h1
      rw [hd.cell j j1 j2] at h2
      rw [hinj i j i1 i2 j1 j2 ((Res.ok.inj h1).trans (Res.ok.inj h2).symm)])
    (by
      intro _ e e' f p he hpr h1 h2
      exfalso
      obtain ⟨i, i1, i2, rfl⟩ := hall dst hdd e he (access_inv hd.valid he h1)
      obtain ⟨j, j1, j2, rfl⟩ := hall src hsd f (access1_tags hsd h2) (access_inv hs.valid (access1_tags hsd h2) h2)
      rw [hd.cell i i1 i2] at h1
      rw [hs.cell j j1 j2] at h2
      exact hne i j i1 i2 j1 j2 ((Res.ok.inj h1).trans (Res.ok.inj h2).symm))
    (by rw [hdd]; exact hcard) (by rw [hsd]; exact hcard)
    (by
      rw [hdd, hsd]
      have hv := (seg_valid (t := t) hd.bd.1 hd.bd.2).2
      exact (C08_eq_equiv _ _ _ hv hv hv (List.Perm.refl _) (List.Perm.refl _) hcard hcard hcard).1)
    (by rw [hdd, hsd]) (by rw [extents_dims hd]; exact hp)
  have hval : ∀ j, c ≤ j → j < d → cell mem' dst.buf (pd j) = cell mem dst.buf (ps j) := by
    intro j j1 j2
    have htj : tags (el t j) = tags dst.span.dom := by rw [hdd]; rfl
    obtain ⟨x, x1, x2⟩ := m2.value (el t j) (el t j) htj
      ((mem_cart_axes hd.valid _).1 ((cart_inBox hd.valid htj).2 (by rw [hdd]; exact (inBox1 hd.bd.1 hd.bd.2 rfl).2 ⟨j, j1, j2, rfl⟩))).2
      ⟨by rw [hsd]; rfl, fun _ _ => rfl⟩
    rw [valueAt, hs.cell j j1 j2, Res.ok_bind, Mem.read_eq] at x1
    rw [valueAt, hd.cell j j1 j2, Res.ok_bind, Mem.read_eq] at x2
    rw [x2, hb, x1]
  have hfr : ∀ b p, (b = dst.buf → ∀ j, c ≤ j → j < d → p ≠ pd j) → cell mem' b p = cell mem b p := by
    intro b p h
    refine m2.frame b p ?_
    rintro ⟨hb', e, he, hac⟩
    obtain ⟨i, i1, i2, rfl⟩ := hall dst hdd e he (access_inv hd.valid he hac)
    rw [hd.cell i i1 i2] at hac
    exact h hb' i i1 i2 (Res.ok.inj hac).symm
  refine ⟨mem', m1, ?_, hval, hfr⟩
  have hlt := hd.lt_cells (Nat.le_refl c) hcd
  refine ha.congr (by omega) (fun p => ?_)
  by_cases h : ∃ j, c ≤ j ∧ j < d ∧ p = pd j
  · obtain ⟨j, j1, j2, rfl⟩ := h
    rw [hval j j1 j2, ha.isSome, ha.isSome]
    have h1 := hd.lt_cells j1 j2
    have h2 := hs.lt_cells j1 j2
    omega
  · rw [hfr _ p (fun _ j j1 j2 e => h ⟨j, j1, j2, e⟩)]

end memory

end DDC.Grid2
