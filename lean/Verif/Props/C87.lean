import Verif.Props.C16
import Verif.Props.C77
import Verif.Model.HeatOutput

/-!
# C87 — the output of the example programs
-/

namespace DDC.Props

open Tup Spec Heat
open One (seg el vec)

set_option linter.unusedSectionVars false

section schedule

variable {τ : Type} [DecidableEq τ] {S O : Type}

/-- What has been shown after round `k`, without the final output. -/
private def shownUpTo (P : Nat) (o : Nat → O) (k : Nat) : List O := ((List.range (k + 1)).filter (fun i => decide (i % P = 0))).map o

private theorem mod_succ_eq {P k : Nat} (hP : 0 < P) (h : k % P + 1 = P) : (k + 1) % P = 0 ∧ (k + 1) / P * P = k + 1 := by
  have hd := Nat.div_add_mod k P
  have e : k + 1 = P * (k / P + 1) := by rw [Nat.mul_add, Nat.mul_one]; omega
  constructor
  · rw [e, Nat.mul_mod_right]
  · conv_lhs => rw [e, Nat.mul_div_cancel_left _ hP, Nat.mul_comm]
    exact e.symm

private theorem mod_succ_ne {P k : Nat} (hP : 0 < P) (h : k % P + 1 ≠ P) : (k + 1) % P ≠ 0 ∧ (k + 1) / P * P = k / P * P := by
  have hd := Nat.div_add_mod k P
  have hl := Nat.mod_lt k hP
  have e : k + 1 = k % P + 1 + P * (k / P) := by omega
  constructor
  · rw [e, Nat.add_mul_mod_self_left, Nat.mod_eq_of_lt (by omega)]; omega
  · have : (k + 1) / P = k / P := by
      conv_lhs => rw [e, Nat.add_mul_div_left _ _ hP, Nat.div_eq_of_lt (show k % P + 1 < P by omega), Nat.zero_add]
    rw [this]

variable {t : τ} {a N P : Nat} {step : Nat → S → Res S} {showNext showLast : Elem τ → S → Res O} {swap : S → S}
  {Inv Inv' : Nat → S → Prop} {o : Nat → O}

private theorem loop_shown (hP : 0 < P) (hPb : P < 2 ^ 63) (hb : a + N + 1 < 2 ^ 63)
    (hstep : ∀ i s, i < N → Inv i s → ∃ s', step i s = .ok s' ∧ Inv' (i + 1) s') (hswap : ∀ i s, Inv' i s → Inv i (swap s))
    (hnext : ∀ i s, i ≤ N → Inv' i s → showNext (el t (a + i)) s = .ok (o i)) (n k : Nat) (hk : k + n = N) {s : S} (hs : Inv k s) :
    ∃ s', Output.loop (BitVec.ofNat 64 P) step showNext swap n k (el t (a + (k + 1))) (el t (a + k / P * P)) s (shownUpTo P o k) =
      .ok (shownUpTo P o N, el t (a + N / P * P), s') ∧ Inv N s' := by
  induction n generalizing k s with
  | zero =>
    obtain rfl : k = N := by omega
    exact ⟨s, rfl, hs⟩
  | succ n ih =>
    obtain ⟨s1, h1, h2⟩ := hstep k s (by omega) hs
    obtain ⟨s2, h3, h4⟩ := ih (k + 1) (by omega) (hswap _ _ h2)
    refine ⟨s2, ?_, h4⟩
    rw [← h3]
    have hd := Nat.div_add_mod k P
    rw [Nat.mul_comm] at hd
    have hl := Nat.mod_lt k hP
    have hsub : Elem.sub (el t (a + (k + 1))) (el t (a + k / P * P)) = .ok (vec t (k % P + 1)) := by
      rw [One.sub_nat t (by omega)]; congr 2; omega
    have hval : Vect.value (vec t (k % P + 1)) = .ok (BitVec.ofNat 64 (k % P + 1)) := rfl
    have hinc : Elem.inc (el t (a + (k + 1))) = .ok (el t (a + (k + 1 + 1))) := by
      simp [Elem.inc, el, ← Nat.add_assoc, BitVec.ofNat_add]
    have e2 : shownUpTo P o (k + 1) = shownUpTo P o k ++ ([k + 1].filter (fun i => decide (i % P = 0))).map o := by
      rw [shownUpTo, List.range_succ, List.filter_append, List.map_append]; rfl
    rw [Output.loop]
    simp only [h1, Res.ok_bind, hsub, hval, One.toInt_ofNat hPb, One.toInt_ofNat (show k % P + 1 < 2 ^ 63 by omega)]
    by_cases hc : k % P + 1 = P
    · obtain ⟨g1, g2⟩ := mod_succ_eq hP hc
      rw [if_pos (by omega), hnext (k + 1) s1 (by omega) h2]
      simp only [Res.ok_bind, hinc, e2, g2]
      simp [g1]
    · obtain ⟨g1, g2⟩ := mod_succ_ne hP hc
      rw [if_neg (by omega)]
      simp only [Res.ok_bind, hinc, e2, g2]
      simp [g1]

/-- Whatever the state and the way it is shown: with `N` rounds and the period `P`, states `0`, `P`, `2 P`... and state `N` are shown,
each once and in this order.  `Inv i` is what is known of the state after `i` rounds, `Inv' i` before the exchange of round `i`. -/
theorem C87_schedule (hP : 0 < P) (hPb : P < 2 ^ 63) (hb : a + N + 1 < 2 ^ 63)
    (hstep : ∀ i s, i < N → Inv i s → ∃ s', step i s = .ok s' ∧ Inv' (i + 1) s') (hswap : ∀ i s, Inv' i s → Inv i (swap s))
    (hnext : ∀ i s, i ≤ N → Inv' i s → showNext (el t (a + i)) s = .ok (o i))
    (hlast : ∀ i s, i ≤ N → Inv i s → showLast (el t (a + i)) s = .ok (o i)) {s : S} (hs : Inv 0 s) :
    ∃ s', Output.run (BitVec.ofNat 64 P) step showNext showLast swap (seg t a (a + N + 1)) (vec t 1) s =
      .ok (((List.range (N + 1)).filter (fun i => decide (i % P = 0 ∨ i = N))).map o, s') ∧ Inv N s' := by
  obtain ⟨s', h1, h2⟩ := loop_shown (t := t) (showNext := showNext) (o := o) hP hPb hb hstep hswap hnext N 0 (by omega) hs
  refine ⟨s', ?_, h2⟩
  have hr : Dom.removeFirst (seg t a (a + N + 1)) (vec t 1) = .ok (seg t (a + 1) (a + N + 1)) := by
    rw [Dom.removeFirst, One.front, One.addVec_nat, Res.ok_bind, One.extents_nat t (by omega), Res.ok_bind, vec, vec,
      One.vsub_nat t (by omega) (by omega), Res.ok_bind, ← vec, One.ofSize_nat]
    congr 2; omega
  have hz : Dom.size (seg t (a + 1) (a + N + 1)) = .ok (BitVec.ofNat 64 N) := by
    have : Dom.size (seg t (a + 1) (a + N + 1)) = .ok (BitVec.ofNat 64 (a + N + 1) - BitVec.ofNat 64 (a + 1)) := by
      simp [Dom.size, seg, Dom.sizeAux, Dom.extent, Dom.beg, Dom.fin, Tup.select, Tup.ofTuples, Tup.take, Elem.sub, Tup.zipVals,
        TypeSeq.same, TypeSeq.contains]
    rw [this, One.ofNat_sub (by omega)]; congr 2; omega
  have h0 : shownUpTo P o 0 = [o 0] := by simp [shownUpTo]
  rw [h0, Nat.zero_div, Nat.zero_mul] at h1
  have hd := Nat.div_add_mod N P
  rw [Nat.mul_comm] at hd
  have hlt : Elem.lt (el t (a + N / P * P)) (el t (a + N)) = .ok (decide (N % P ≠ 0)) := by
    have : (BitVec.ofNat 64 (a + N / P * P) < BitVec.ofNat 64 (a + N)) ↔ N % P ≠ 0 := by
      rw [BitVec.lt_def, BitVec.toNat_ofNat, BitVec.toNat_ofNat, Nat.mod_eq_of_lt (by omega), Nat.mod_eq_of_lt (by omega)]; omega
    simp only [Elem.lt, el, if_true, this]
  have hL : ((List.range (N + 1)).filter (fun i => decide (i % P = 0 ∨ i = N))).map o =
      ((List.range N).filter (fun i => decide (i % P = 0))).map o ++ [o N] := by
    rw [List.range_succ, List.filter_append, List.map_append]
    congr 1
    · congr 1
      refine List.filter_congr (fun i hi => ?_)
      have := List.mem_range.1 hi
      have h3 : i ≠ N := by omega
      simp [h3]
    · simp
  have hS : shownUpTo P o N = ((List.range N).filter (fun i => decide (i % P = 0))).map o ++
      ([N].filter (fun i => decide (i % P = 0))).map o := by
    rw [shownUpTo, List.range_succ, List.filter_append, List.map_append]
  have hN : (BitVec.ofNat 64 N).toNat = N := Grid2.toNat_small (by omega)
  rw [Output.run]
  simp only [One.front, hr, hz, Res.ok_bind, hN, One.back_nat t (show 1 ≤ a + N + 1 by omega), show a + N + 1 - 1 = a + N by omega]
  rw [show el t a = el t (a + 0) from rfl, hlast 0 s (by omega) hs, Res.ok_bind, show a + 1 = a + (0 + 1) by omega, h1]
  simp only [Res.ok_bind, hlt, hL]
  by_cases hc : N % P = 0
  · simp [hc, hS]
  · simp [hc, hS, hlast N s' (le_refl _) h2]

end schedule

section heat

open Grid2

variable {K : Type} [Field K] [LinearOrder K] [IsStrictOrderedRing K]

private theorem foldSum {body : K → Nat → Res K} {f : Nat → K} (n : Nat) (hb : ∀ j, j < n → ∀ s, body s j = .ok (f j + s)) :
    (List.range n).foldlM body 0 = .ok (∑ j ∈ Finset.range n, f j) := by
  induction n with
  | zero => rfl
  | succ n ih =>
    rw [List.range_succ, List.foldlM_append, ih (fun j hj => hb j (by omega)), Res.ok_bind, List.foldlM_cons, hb n (by omega),
      Res.ok_bind, Finset.sum_range_succ, add_comm]
    rfl

private theorem foldList {body : List K → Nat → Res (List K)} {f : Nat → K} (n : Nat)
    (hb : ∀ j, j < n → ∀ s, body s j = .ok (s ++ [f j])) : (List.range n).foldlM body [] = .ok ((List.range n).map f) := by
  induction n with
  | zero => rfl
  | succ n ih =>
    rw [List.range_succ, List.foldlM_append, ih (fun j hj => hb j (by omega)), Res.ok_bind, List.foldlM_cons, hb n (by omega),
      Res.ok_bind, List.map_append]
    rfl

private theorem leaf1 (t : Dim) (n j : Nat) :
    Support.leaf (Dom.support (seg t 1 (n + 1))) [BitVec.ofInt 64 (0 + (j : Int))] = .ok (el t (j + 1)) := by
  have : Support.leaf (Dom.support (seg t 1 (n + 1))) [BitVec.ofInt 64 (0 + (j : Int))] = Dom.at' (seg t 1 (n + 1)) (vec t j) := by
    simp [Support.leaf, Dom.support, seg, vec]
  have hb : Dom.beg (seg t 1 (n + 1)) = el t 1 := rfl
  rw [this, Dom.at', hb, One.addVec_nat, Nat.add_comm]
  simp [seg, vec, Nat.add_comm]

private theorem leaf2 (nx ny i j : Nat) :
    Support.leaf (Dom.support (seg2 Dim.x Dim.y 1 (nx + 1) 1 (ny + 1))) [BitVec.ofInt 64 (0 + (i : Int)), BitVec.ofInt 64 (0 + (j : Int))] =
      .ok (pt Dim.x Dim.y (i + 1) (j + 1)) := by
  have : Support.leaf (Dom.support (seg2 Dim.x Dim.y 1 (nx + 1) 1 (ny + 1)))
      [BitVec.ofInt 64 (0 + (i : Int)), BitVec.ofInt 64 (0 + (j : Int))] =
      .ok [(Dim.x, BitVec.ofNat 64 1 + BitVec.ofNat 64 i), (Dim.y, BitVec.ofNat 64 1 + BitVec.ofNat 64 j)] := by
    simp [Support.leaf, Dom.support, seg2, Dom.at', Dom.beg, Elem.addVec, Tup.opAssign, Tup.modify]
  rw [this, ← BitVec.ofNat_add, ← BitVec.ofNat_add, Nat.add_comm 1, Nat.add_comm 1]; rfl

private theorem extents2 {nx ny : Nat} :
    (Dom.support (seg2 Dim.x Dim.y 1 (nx + 1) 1 (ny + 1))).extents = .ok [(Dim.x, BitVec.ofNat 64 nx), (Dim.y, BitVec.ofNat 64 ny)] := by
  have : (Dom.support (seg2 Dim.x Dim.y 1 (nx + 1) 1 (ny + 1))).extents =
      .ok [(Dim.x, BitVec.ofNat 64 (nx + 1) - BitVec.ofNat 64 1), (Dim.y, BitVec.ofNat 64 (ny + 1) - BitVec.ofNat 64 1)] := by
    simp [Dom.support, Dom.extents, seg2, Dom.beg, Dom.fin, Elem.sub, Tup.zipVals, TypeSeq.same, TypeSeq.contains, TypeSeq.present]
  rw [this, One.ofNat_sub (by omega), One.ofNat_sub (by omega)]; rfl

variable {nx ny N : Nat} {pos : Nat → Nat → Nat} {s : Span (Dom Dim)}

/-- `display` shows the time, the mean and the line at half of the height. -/
private theorem display_ok {time : K} {temp : View (Dom Dim)} {mem : Mem K} {u : Nat → Nat → K}
    (h : Chart2 Dim.x Dim.y temp.span 1 (nx + 1) 1 (ny + 1) pos) (hy : 1 ≤ ny) (hc : nx * ny < 2 ^ 64)
    (hu : Holds nx ny pos mem temp.buf u) :
    display time temp mem = .ok ⟨time, (∑ i ∈ Finset.range nx, ∑ j ∈ Finset.range ny, u (i + 1) (j + 1)) / ((nx : K) * ny),
      BitVec.ofNat 64 (ny / 2), (List.range nx).map (fun i => u (i + 1) (ny / 2 + 1))⟩ := by
  have hbx := h.bx; have hby := h.byy
  have hd := h.dom
  have hn1 : (BitVec.ofNat 64 nx).toInt = (nx : Int) := One.toInt_ofNat (by omega)
  have hn2 : (BitVec.ofNat 64 ny).toInt = (ny : Int) := One.toInt_ofNat (by omega)
  have h1 : Support.transformReduce (Dom.support temp.span.dom) 0 (fun a b => .ok (Reducer.sum a b)) (fun e => View.get mem temp [e]) =
      .ok (∑ i ∈ Finset.range nx, ∑ j ∈ Finset.range ny, u (i + 1) (j + 1)) := by
    rw [hd, Support.transformReduce, extents2, Res.ok_bind]
    simp only [vals, List.map_cons, List.map_nil, Support.transformReduceSerial, List.nil_append, List.cons_append, hn1, hn2]
    rw [Support.loop_eq nx _ nx 0 (by omega), foldSum (f := fun i => ∑ j ∈ Finset.range ny, u (i + 1) (j + 1)) nx]
    · rfl
    · intro i hi c
      rw [Support.loop_eq ny _ ny 0 (by omega), foldSum (f := fun j => u (i + 1) (j + 1)) ny]
      · rfl
      · intro j hj c
        rw [leaf2, Res.ok_bind, View.get, h.cell (i + 1) (j + 1) (by omega) (by omega) (by omega) (by omega), Res.ok_bind,
          Mem.read_eq.2 (hu (i + 1) (j + 1) (by omega) (by omega) (by omega) (by omega))]
        rfl
  obtain ⟨z, z1, z2⟩ := Dom.size_ok temp.span.dom (h.valid xy)
  rw [hd, card_seg2 xy (by omega) (by omega) (by omega) (by omega), Nat.mod_eq_of_lt (by simpa using hc), Nat.add_sub_cancel,
    Nat.add_sub_cancel] at z2
  obtain ⟨r, r1, r2, r3⟩ := Dom.ofDomains_ok (qs := [Dim.y]) (ds := [temp.span.dom]) (by decide) (by rw [hd]; simp [seg2])
    (fun q hq => Dom.ownedOnce_singleton (by rw [hd]; simp at hq; subst hq; simp [seg2]))
  have hr : r = seg Dim.y 1 (ny + 1) := eq_seg r2 (by
    rw [r3 Dim.y (by simp) temp.span.dom (by simp) (by rw [hd]; simp [seg2]), hd, get_seg2_y xy])
  have hz : Dom.size (seg Dim.y 1 (ny + 1)) = .ok (BitVec.ofNat 64 ny) := by
    have : Dom.size (seg Dim.y 1 (ny + 1)) = .ok (BitVec.ofNat 64 (ny + 1) - BitVec.ofNat 64 1) := by
      simp [Dom.size, seg, Dom.sizeAux, Dom.extent, Dom.beg, Dom.fin, Tup.select, Tup.ofTuples, Tup.take, Elem.sub, Tup.zipVals,
        TypeSeq.same, TypeSeq.contains]
    rw [this, One.ofNat_sub (by omega)]; congr 2
  have hid : (BitVec.ofNat 64 ny / 2 : U64) = BitVec.ofNat 64 (ny / 2) := by
    apply BitVec.eq_of_toNat_eq
    rw [BitVec.toNat_udiv, toNat_small (by omega), toNat_small (by omega)]; rfl
  obtain ⟨s', s1, s2, s3⟩ := h.slice_y xy (j := ny / 2 + 1) (by omega) (by omega)
  have hax : get Dim.y (axes temp.span.dom) = .ok (axis (BitVec.ofNat 64 1) (BitVec.ofNat 64 (ny + 1))) := by
    rw [hd]; rfl
  have hsl : temp.span.sliceVec Dom.spanOps [(Dim.y, BitVec.ofNat 64 (ny / 2))] = .ok s' := by
    rw [(C16_slice (h.valid xy) h.wf).displacement (el Dim.y (ny / 2 + 1)) [(Dim.y, BitVec.ofNat 64 (ny / 2))] ?_ ?_, s1]
    · refine ⟨by simp [el], ?_⟩
      intro q x hq
      have hqy : q = Dim.y := by
        by_contra hne
        simp [el, get_cons, hne] at hq
      subst hqy
      refine ⟨_, hax, ?_⟩
      simp [el] at hq
      rw [← hq]
      exact mem_axis (by omega) (by omega) (by omega)
    · refine ⟨rfl, ?_⟩
      intro q l x hl hq
      have hqy : q = Dim.y := by
        by_contra hne
        simp [el, get_cons, hne] at hq
      subst hqy
      rw [hax] at hl
      simp [el] at hq
      injection hl with hl
      refine ⟨BitVec.ofNat 64 (ny / 2), by simp, ?_⟩
      rw [← hl, ← hq, toNat_small (by omega), axis_getElem? (by rw [toNat_small (by omega), toNat_small (by omega)]; omega)]
      congr 1
      rw [← BitVec.ofNat_add, Nat.add_comm]
  have h5 : Support.forEach (Dom.support s'.dom) (fun e (l : List K) => (do
      let x ← View.get mem (⟨temp.buf, temp.space, .stride, s'⟩ : View (Dom Dim)) [e]
      .ok (l ++ [x]) : Res (List K))) [] = .ok ((List.range nx).map (fun i => u (i + 1) (ny / 2 + 1))) := by
    have he : (Dom.support (seg Dim.x 1 (nx + 1))).extents = .ok (vec Dim.x nx) := One.extents_nat Dim.x (by omega)
    rw [s3.dom, Support.forEach, he, Res.ok_bind]
    simp only [vec, vals, List.map_cons, List.map_nil, Support.forEachSerial, List.nil_append, hn1]
    rw [Support.loop_eq nx _ nx 0 (by omega), foldList (f := fun i => u (i + 1) (ny / 2 + 1)) nx]
    · rfl
    · intro i hi l
      rw [leaf1, Res.ok_bind, View.get, s3.cell (i + 1) (by omega) (by omega), Res.ok_bind,
        Mem.read_eq.2 (hu (i + 1) (ny / 2 + 1) (by omega) (by omega) (by omega) (by omega))]
      rfl
  rw [display, h1, Res.ok_bind, z1, Res.ok_bind, r1, Res.ok_bind, hr, hz]
  simp only [Res.ok_bind, hid, hsl, h5, z2]
  push_cast
  rfl

private theorem displayMain_ok (G : Heat.Grid nx ny N pos s) (hc : nx * ny < 2 ^ 64) {co : Elem Dim → Res K} {iter : Elem Dim} {time : K}
    (ht : co iter = .ok time) {v : View (Dom Dim)} (hv : v.span = s) {mem : Mem K} {u : Nat → Nat → K}
    (hu : Holds nx ny pos mem v.buf u) :
    displayMain co (axisOf .x nx) (axisOf .y ny) iter v mem =
      .ok ⟨time, (∑ i ∈ Finset.range nx, ∑ j ∈ Finset.range ny, u (i + 1) (j + 1)) / ((nx : K) * ny),
        BitVec.ofNat 64 (ny / 2), (List.range nx).map (fun i => u (i + 1) (ny / 2 + 1))⟩ := by
  subst hv
  have hx := G.sx; have hy := G.sy
  have hbx := G.chart.bx; have hby := G.chart.byy
  obtain ⟨s', s1, s2, s3⟩ := G.chart.restrict xy (a' := 1) (b' := nx + 1) (c' := 1) (d' := ny + 1) (by omega) (by omega) (by omega)
    (by omega) (by omega) (by omega)
  have o1 := ofDomains_xy 1 (nx + 1) 1 (ny + 1) (by omega) (by omega) (by omega) (by omega)
  simp only [displayMain, ht, Res.ok_bind, axisOf, o1, View.restrictTo, s1]
  exact display_ok (temp := ⟨v.buf, v.space, .stride, s'⟩) s3 hy hc hu

variable {p : Params K} {M P : Nat}

open Finset in
/-- What `display` shows of the temperatures `u` on `nx × ny` points. -/
def shownOf (nx ny : Nat) (time : K) (u : Nat → Nat → K) : Shown K :=
  ⟨time, (∑ i ∈ range nx, ∑ j ∈ range ny, u i j) / ((nx : K) * ny), BitVec.ofNat 64 (ny / 2), (List.range nx).map (fun i => u i (ny / 2))⟩

/-- The steps among `0`, ..., `M` that are shown with the period `P`. -/
def shownSteps (P M : Nat) : List Nat := (List.range (M + 1)).filter (fun k => decide (k % P = 0 ∨ k = M))

private theorem timeLoopShown_ok {incX incY : Elem Dim → K → K → K → Res K} {dX dY : Nat → K → K → K → K} {last next : View (Dom Dim)}
    (G : Heat.Grid nx ny N pos s) (hls : last.span = s) (hns : next.span = s) (hb : last.buf ≠ next.buf)
    (hX : ∀ i, 1 ≤ i → i < nx + 1 → ∀ r c l, incX (el Dim.x i) r c l = .ok (dX i r c l))
    (hY : ∀ j, 1 ≤ j → j < ny + 1 → ∀ r c l, incY (el Dim.y j) r c l = .ok (dY j r c l))
    {orders : Nat → Orders} (hos : ∀ k, OrdersOk nx ny (orders k)) {mem : Mem K} {u0 : Nat → Nat → K} (hl : Alloc mem last.buf N)
    (hn : Alloc mem next.buf N) (hu : Holds nx ny pos mem last.buf u0) (hc : nx * ny < 2 ^ 64) {t0 dt : K}
    {w : Nat → Nat → Nat → K} (hw : ∀ k i j, i < nx → j < ny → (Heat.step (· + ·) dX dY nx ny)^[k] u0 (i + 1) (j + 1) = w k i j)
    (hP : 0 < P) (hPb : P < 2 ^ 63) (hM : M + 1 < 2 ^ 63) :
    ∃ mem' v, timeLoopShown incX incY (⟨t0, dt, el Dim.t 0⟩ : Uniform Dim K).coordinate (axisOf .x nx) (axisOf .y ny) orders
        (BitVec.ofNat 64 P) (seg Dim.t 0 (M + 1)) last next mem =
      .ok ((shownSteps P M).map (fun (k : Nat) => shownOf nx ny (t0 + k * dt) (w k)), mem', v) ∧
      ∀ i j, i < nx → j < ny →
        View.get mem' v [[(Dim.x, BitVec.ofNat 64 (i + 1))], [(Dim.y, BitVec.ofNat 64 (j + 1))]] = .ok (w M i j) := by
  have hy := G.sy
  have hshow : ∀ k (co : Elem Dim → Res K) (iter : Elem Dim) (time : K), co iter = .ok time → ∀ (v : View (Dom Dim)), v.span = s →
      ∀ m : Mem K, Holds nx ny pos m v.buf ((Heat.step (· + ·) dX dY nx ny)^[k] u0) →
      displayMain co (axisOf .x nx) (axisOf .y ny) iter v m = .ok (shownOf nx ny time (w k)) := by
    intro k co iter time ht v hv m hm
    rw [displayMain_ok G hc ht hv hm, shownOf]
    congr 2
    · congr 1
      refine Finset.sum_congr rfl (fun i hi => Finset.sum_congr rfl (fun j hj => ?_))
      exact hw k i j (Finset.mem_range.1 hi) (Finset.mem_range.1 hj)
    · refine List.map_congr_left (fun i hi => ?_)
      exact hw k i (ny / 2) (List.mem_range.1 hi) (by omega)
  have hct : ∀ i, i ≤ M → (⟨t0, dt, el Dim.t 0⟩ : Uniform Dim K).coordinate (el Dim.t (0 + i)) = .ok (t0 + (i : K) * dt) := by
    intro i hi
    rw [Nat.zero_add]
    exact coordinate_ok Dim.t t0 dt (by omega)
  obtain ⟨s', b1, b2⟩ := C87_schedule (S := Mem K × View (Dom Dim) × View (Dom Dim)) (O := Shown K) (t := Dim.t) (a := 0) (N := M)
    (P := P) (s := (mem, last, next))
    (step := fun i s => do
      let mem ← timeStep (· + ·) incX incY (axisOf .x nx) (axisOf .y ny) (orders i) s.2.1 s.2.2 s.1
      .ok (mem, s.2.1, s.2.2))
    (showNext := fun iter s => displayMain (⟨t0, dt, el Dim.t 0⟩ : Uniform Dim K).coordinate (axisOf .x nx) (axisOf .y ny)
      iter s.2.2 s.1)
    (showLast := fun iter s => displayMain (⟨t0, dt, el Dim.t 0⟩ : Uniform Dim K).coordinate (axisOf .x nx) (axisOf .y ny)
      iter s.2.1 s.1)
    (swap := fun s => (s.1, s.2.2, s.2.1))
    (Inv := fun k q => q.2.1.span = s ∧ q.2.2.span = s ∧ q.2.1.buf ≠ q.2.2.buf ∧ Alloc q.1 q.2.1.buf N ∧ Alloc q.1 q.2.2.buf N ∧
      Holds nx ny pos q.1 q.2.1.buf ((Heat.step (· + ·) dX dY nx ny)^[k] u0))
    (Inv' := fun k q => q.2.1.span = s ∧ q.2.2.span = s ∧ q.2.1.buf ≠ q.2.2.buf ∧ Alloc q.1 q.2.1.buf N ∧ Alloc q.1 q.2.2.buf N ∧
      Holds nx ny pos q.1 q.2.2.buf ((Heat.step (· + ·) dX dY nx ny)^[k] u0))
    (o := fun (k : Nat) => shownOf nx ny (t0 + k * dt) (w k))
    hP hPb (by omega)
    (by
      rintro i ⟨m, l, n⟩ hi ⟨q1, q2, q3, q4, q5, q6⟩
      obtain ⟨m', t1, t2, t3, t4⟩ := timeStep_ok (add := (· + ·)) (incX := incX) (incY := incY) (dX := dX) (dY := dY) G q1 q2 q3 hX hY
        (hos i) q4 q5 q6
      refine ⟨(m', l, n), by simp only [t1, Res.ok_bind], q1, q2, q3, t2, t3, ?_⟩
      rw [Function.iterate_succ_apply']
      exact t4)
    (by
      rintro i ⟨m, l, n⟩ ⟨q1, q2, q3, q4, q5, q6⟩
      exact ⟨q2, q1, q3.symm, q5, q4, q6⟩)
    (by
      rintro i ⟨m, l, n⟩ hi ⟨q1, q2, q3, q4, q5, q6⟩
      exact hshow i _ _ _ (hct i hi) _ q2 _ q6)
    (by
      rintro i ⟨m, l, n⟩ hi ⟨q1, q2, q3, q4, q5, q6⟩
      exact hshow i _ _ _ (hct i hi) _ q1 _ q6)
    ⟨hls, hns, hb, hl, hn, hu⟩
  obtain ⟨m', l', n'⟩ := s'
  obtain ⟨q1, q2, q3, q4, q5, q6⟩ := b2
  have hbx := G.chart.bx; have hby := G.chart.byy
  refine ⟨m', l', ?_, ?_⟩
  · have e1 : [(Dim.t, (1 : I64))] = vec Dim.t 1 := rfl
    rw [Nat.zero_add] at b1
    rw [timeLoopShown, e1, b1]
    rfl
  · intro i j hi hj
    refine Heat.get_ok (by rw [q1]; exact G.chart) (by omega) (by omega) (by omega) (by omega) ?_
    rw [q6 (i + 1) (j + 1) (by omega) (by omega) (by omega) (by omega), hw M i j hi hj]

/-- What `uniform_heat_equation.cpp` shows, whatever the orders of its kernels: the states after `0`, `P`, `2 P`... and `M` steps of the
scheme, each with its time, the mean temperature and the temperatures on the line at half of the height.  It ends as without its
output. -/
theorem C87_heat [FloorRing K] (h : HeatSetting p nx ny M) (hP : 0 < P) (hPb : P < 2 ^ 63) (temp : K → K → K) (junk : Nat → K)
    (order : List (List I64)) (ho : order.Perm (Support.policy [BitVec.ofNat 64 nx, BitVec.ofNat 64 ny])) (orders : Nat → Orders)
    (hos : ∀ k, OrdersOk nx ny (orders k)) :
    ∃ mem v, Heat.mainShown p (BitVec.ofNat 64 P) temp junk order orders =
        .ok ((shownSteps P M).map (fun (k : Nat) => shownOf nx ny (p.startTime + k * ((p.endTime - p.startTime) / M))
          ((heatStep (coefX p nx M) (coefY p ny M) nx ny)^[k] (initialHeat p nx ny temp))), mem, v) ∧
      ∀ i j, i < nx → j < ny →
        View.get mem v [[(Dim.x, BitVec.ofNat 64 (i + 1))], [(Dim.y, BitVec.ofNat 64 (j + 1))]] =
          .ok ((heatStep (coefX p nx M) (coefY p ny M) nx ny)^[M] (initialHeat p nx ny temp) i j) := by
  have hx := h.x2; have hy := h.y2; have hxb := h.xb; have hyb := h.yb; have hcc := h.cells; have htb := h.tb; have hMp := h.pos
  have hnn : nx * ny < 2 ^ 64 := lt_of_le_of_lt (Nat.mul_le_mul (by omega) (by omega)) hcc
  have hceil := h.ceil
  have es : stableStep p.kx (gap p.xStart p.xEnd nx) p.ky (gap p.yStart p.yEnd ny) =
      1 / 2 / (p.kx * (1 / (gap p.xStart p.xEnd nx * gap p.xStart p.xEnd nx)) +
        p.ky * (1 / (gap p.yStart p.yEnd ny * gap p.yStart p.yEnd ny))) := by
    rw [stableStep, div_div, mul_one_div, mul_one_div, pow_two, pow_two]
  rw [es] at hceil
  obtain ⟨dx, hdx⟩ : ∃ dx, dx = gap p.xStart p.xEnd nx := ⟨_, rfl⟩
  obtain ⟨dy, hdy⟩ : ∃ dy, dy = gap p.yStart p.yEnd ny := ⟨_, rfl⟩
  obtain ⟨dt, hdt⟩ : ∃ dt, dt = (p.endTime - p.startTime) / (M : K) := ⟨_, rfl⟩
  have hi1 := initGhosted1_ok Dim.x p.xStart p.xEnd h.xs nx (by omega) hxb
  have hi2 := initGhosted1_ok Dim.y p.yStart p.yEnd h.ys ny (by omega) hyb
  rw [← gap_eq hx, ← hdx] at hi1
  rw [← gap_eq hy, ← hdy] at hi2
  rw [← hdx, ← hdy] at hceil
  have hi3 := init_ok Dim.t p.startTime p.endTime h.ts (M + 1) (by omega) htb
  rw [show M + 1 - 1 = M by omega, ← hdt] at hi3
  have hco : ∀ (t : Dim) (a d : K) (i : Nat), i < 2 ^ 63 →
      (⟨a - 1 * d, d, el t 0⟩ : Uniform Dim K).coordinate (el t i) = .ok (a + ((i : K) - 1) * d) := by
    intro t a d i hi
    have := coordinate_ok t (a - 1 * d) d hi
    rw [show (Elem.createReference t : Elem Dim) = el t 0 from rfl] at this
    rw [this]; congr 1; ring
  obtain ⟨mem, last, next, s, pos, N, a1, G, a3, a4, a5, a6, a7, a8⟩ := allocate_ok (nx := nx) (ny := ny) (by omega) (by omega)
    hxb hyb hcc (xOf := (⟨p.xStart - 1 * dx, dx, el Dim.x 0⟩ : Uniform Dim K).coordinate)
    (yOf := (⟨p.yStart - 1 * dy, dy, el Dim.y 0⟩ : Uniform Dim K).coordinate)
    (xs := fun i => p.xStart + ((i : K) - 1) * dx) (ys := fun j => p.yStart + ((j : K) - 1) * dy)
    (fun i _ h => hco .x _ _ i (by omega)) (fun j _ h => hco .y _ _ j (by omega)) temp junk ho
  obtain ⟨m', v, b1, b2⟩ := timeLoopShown_ok (M := M) (P := P) (t0 := p.startTime) (dt := dt)
    (incX := uniformInc p.kx dt (1 / (dx * dx))) (incY := uniformInc p.ky dt (1 / (dy * dy)))
    (dX := fun _ r c l => p.kx * dt * (r - 2 * c + l) * (1 / (dx * dx)))
    (dY := fun _ r c l => p.ky * dt * (r - 2 * c + l) * (1 / (dy * dy)))
    (w := fun k => (heatStep (coefX p nx M) (coefY p ny M) nx ny)^[k] (initialHeat p nx ny temp))
    G a3 a4 a5 (fun _ _ _ _ _ _ => rfl) (fun _ _ _ _ _ _ => rfl) hos a6 a7 a8 hnn
    (by
      intro k i j hi hj
      refine step_torus ?_ ?_ ?_ k i j hi hj
      · intro i r c l; rw [coefX, ← hdx, ← hdt]; field_simp
      · intro j r c l; rw [coefY, ← hdy, ← hdt]; field_simp
      · intro i j _ _
        simp only [initialHeat, ← hdx, ← hdy]
        push_cast
        congr 2 <;> ring)
    hP hPb htb
  refine ⟨m', v, ?_, b2⟩
  have hadd : Vect.addInt [(Dim.t, BitVec.ofNat 64 M)] 1 = .ok [(Dim.t, BitVec.ofNat 64 (M + 1))] := by
    have : (1 : I64) = BitVec.ofNat 64 1 := rfl
    rw [Vect.addInt, this, One.sAdd_nat htb]; rfl
  rw [mainShown, h.enx, h.eny, hi1, Res.ok_bind]
  simp only [axis_ok, Res.ok_bind, hi2, ceilCast_ok hceil (show M < 2 ^ 63 by omega), hadd, hi3, a1, b1, ← hdt]

private theorem solveShown_ok [FloorRing K] {kx ky t0 t1 : K} (hx1 : 1 ≤ nx) (hy1 : 1 ≤ ny) (hx2 : nx + 2 < 2 ^ 63)
    (hy2 : ny + 2 < 2 ^ 63) (hc : (nx + 2) * (ny + 2) < 2 ^ 64) (ht : t0 < t1) {X Y : Sampler K} {xs lx rx ys ly ry : Nat → K}
    (hX : ∀ i, 1 ≤ i → i < nx + 1 → X.coordinate (el .x i) = .ok (xs i) ∧ (X.left (el .x i) = .ok (lx i) ∧ 0 < lx i) ∧
      X.right (el .x i) = .ok (rx i) ∧ 0 < rx i)
    (hY : ∀ i, 1 ≤ i → i < ny + 1 → Y.coordinate (el .y i) = .ok (ys i) ∧ (Y.left (el .y i) = .ok (ly i) ∧ 0 < ly i) ∧
      Y.right (el .y i) = .ok (ry i) ∧ 0 < ry i)
    {mx my : K} (hmx : IsInvMax nx lx rx mx) (hmy : IsInvMax ny ly ry my)
    (hM : ⌈(t1 - t0) / (1 / 2 / (kx * mx + ky * my))⌉ = (M : Int)) (hM0 : 0 < M) (hM1 : M + 1 < 2 ^ 63)
    (temp : K → K → K) (junk : Nat → K)
    {order : List (List I64)} (ho : order.Perm (Support.policy [BitVec.ofNat 64 nx, BitVec.ofNat 64 ny]))
    {orders : Nat → Orders} (hos : ∀ k, OrdersOk nx ny (orders k)) {w : Nat → Nat → Nat → K}
    (hw : ∀ k i j, i < nx → j < ny → (Heat.step (· + ·) (incOf kx ((t1 - t0) / M) lx rx) (incOf ky ((t1 - t0) / M) ly ry) nx ny)^[k]
      (fun i j => temp (xs i) (ys j)) (i + 1) (j + 1) = w k i j) (hP : 0 < P) (hPb : P < 2 ^ 63) :
    ∃ mem v, solveShown kx ky t0 t1 (axisOf .x nx) (axisOf .y ny) X Y (BitVec.ofNat 64 P) temp junk order orders =
        .ok ((shownSteps P M).map (fun (k : Nat) => shownOf nx ny (t0 + k * ((t1 - t0) / M)) (w k)), mem, v) ∧
      ∀ i j, i < nx → j < ny →
        View.get mem v [[(Dim.x, BitVec.ofNat 64 (i + 1))], [(Dim.y, BitVec.ofNat 64 (j + 1))]] = .ok (w M i j) := by
  obtain ⟨mx', a1, a2⟩ := invMax_ok (S := X) (t := .x) hx1 (by omega) (fun i h1 h2 => (hX i h1 h2).2.1) (fun i h1 h2 => (hX i h1 h2).2.2)
  obtain rfl := hmx.unique a2
  obtain ⟨my', b1, b2⟩ := invMax_ok (S := Y) (t := .y) hy1 (by omega) (fun i h1 h2 => (hY i h1 h2).2.1) (fun i h1 h2 => (hY i h1 h2).2.2)
  obtain rfl := hmy.unique b2
  have hi3 := init_ok Dim.t t0 t1 ht (M + 1) (by omega) hM1
  rw [show M + 1 - 1 = M by omega] at hi3
  obtain ⟨mem, last, next, s, pos, N, c1, G, c3, c4, c5, c6, c7, c8⟩ := allocate_ok (nx := nx) (ny := ny) hx1 hy1
    hx2 hy2 hc (xOf := X.coordinate) (yOf := Y.coordinate) (xs := xs) (ys := ys)
    (fun i h1 h2 => (hX i h1 h2).1) (fun j h1 h2 => (hY j h1 h2).1) temp junk ho
  have hnn : nx * ny < 2 ^ 64 := lt_of_le_of_lt (Nat.mul_le_mul (by omega) (by omega)) hc
  obtain ⟨mem', v, d1, d2⟩ := timeLoopShown_ok (M := M) (P := P) (t0 := t0) (dt := (t1 - t0) / M)
    (incX := distanceInc X kx ((t1 - t0) / M)) (incY := distanceInc Y ky ((t1 - t0) / M))
    (dX := incOf kx ((t1 - t0) / M) lx rx) (dY := incOf ky ((t1 - t0) / M) ly ry) G c3 c4 c5
    (fun i h1 h2 r c l => by
      rw [distanceInc, (hX i h1 h2).2.1.1, Res.ok_bind, (hX i h1 h2).2.2.1, Res.ok_bind, incOf])
    (fun i h1 h2 r c l => by
      rw [distanceInc, (hY i h1 h2).2.1.1, Res.ok_bind, (hY i h1 h2).2.2.1, Res.ok_bind, incOf])
    hos c6 c7 c8 hnn hw hP hPb hM1
  refine ⟨mem', v, ?_, d2⟩
  have hadd : Vect.addInt [(Dim.t, BitVec.ofNat 64 M)] 1 = .ok [(Dim.t, BitVec.ofNat 64 (M + 1))] := by
    have : (1 : I64) = BitVec.ofNat 64 1 := rfl
    rw [Vect.addInt, this, One.sAdd_nat hM1]; rfl
  have a1' : invMax X (axisOf .x nx).main = .ok mx := a1
  have b1' : invMax Y (axisOf .y ny).main = .ok my := b1
  rw [solveShown, a1', Res.ok_bind, b1', Res.ok_bind]
  simp only [Res.ok_bind, ceilCast_ok hM (show M < 2 ^ 63 by omega), hadd, hi3, c1, d1]

/-- `heat_equation.cpp` shows the same as `uniform_heat_equation.cpp` (`C87_heat`). -/
theorem C87_distances [FloorRing K] (h : HeatSetting p nx ny M) (hP : 0 < P) (hPb : P < 2 ^ 63) (temp : K → K → K) (junk : Nat → K) (order : List (List I64))
    (ho : order.Perm (Support.policy [BitVec.ofNat 64 nx, BitVec.ofNat 64 ny])) (orders : Nat → Orders)
    (hos : ∀ k, OrdersOk nx ny (orders k)) :
    ∃ mem v, Heat.mainDistancesShown p (BitVec.ofNat 64 P) temp junk order orders =
        .ok ((shownSteps P M).map (fun (k : Nat) => shownOf nx ny (p.startTime + k * ((p.endTime - p.startTime) / M))
          ((heatStep (coefX p nx M) (coefY p ny M) nx ny)^[k] (initialHeat p nx ny temp))), mem, v) ∧ ∀ i j, i < nx → j < ny →
      View.get mem v [[(Dim.x, BitVec.ofNat 64 (i + 1))], [(Dim.y, BitVec.ofNat 64 (j + 1))]] =
        .ok ((heatStep (coefX p nx M) (coefY p ny M) nx ny)^[M] (initialHeat p nx ny temp) i j) := by
  have hx := h.x2; have hy := h.y2
  have h1 := gap_pos h.xs h.x2
  have h2 := gap_pos h.ys h.y2
  have hceil := h.ceil
  have es : stableStep p.kx (gap p.xStart p.xEnd nx) p.ky (gap p.yStart p.yEnd ny) =
      1 / 2 / (p.kx * (1 / (gap p.xStart p.xEnd nx * gap p.xStart p.xEnd nx)) +
        p.ky * (1 / (gap p.yStart p.yEnd ny * gap p.yStart p.yEnd ny))) := by
    rw [stableStep, div_div, mul_one_div, mul_one_div, pow_two, pow_two]
  rw [es] at hceil
  have hi1 := initGhosted1_ok Dim.x p.xStart p.xEnd h.xs nx (by omega) h.xb
  have hi2 := initGhosted1_ok Dim.y p.yStart p.yEnd h.ys ny (by omega) h.yb
  rw [← gap_eq hx] at hi1
  rw [← gap_eq hy] at hi2
  have hco : ∀ (t : Dim) (a d : K) (i : Nat), i < 2 ^ 63 →
      (⟨a - 1 * d, d, el t 0⟩ : Uniform Dim K).coordinate (el t i) = .ok (a + ((i : K) - 1) * d) := by
    intro t a d i hi
    have := coordinate_ok t (a - 1 * d) d hi
    rw [show (Elem.createReference t : Elem Dim) = el t 0 from rfl] at this
    rw [this]; congr 1; ring
  have hxb := h.xb; have hyb := h.yb
  obtain ⟨mem, v, m1, m2⟩ := solveShown_ok (P := P)
    (w := fun k => (heatStep (coefX p nx M) (coefY p ny M) nx ny)^[k] (initialHeat p nx ny temp)) (kx := p.kx) (ky := p.ky) (nx := nx) (ny := ny) (M := M) (by omega) (by omega)
    h.xb h.yb h.cells h.ts
    (X := uniformSampler ⟨p.xStart - 1 * gap p.xStart p.xEnd nx, gap p.xStart p.xEnd nx, el Dim.x 0⟩)
    (Y := uniformSampler ⟨p.yStart - 1 * gap p.yStart p.yEnd ny, gap p.yStart p.yEnd ny, el Dim.y 0⟩)
    (xs := fun i => p.xStart + ((i : K) - 1) * gap p.xStart p.xEnd nx) (lx := fun _ => gap p.xStart p.xEnd nx)
    (rx := fun _ => gap p.xStart p.xEnd nx) (ys := fun i => p.yStart + ((i : K) - 1) * gap p.yStart p.yEnd ny)
    (ly := fun _ => gap p.yStart p.yEnd ny) (ry := fun _ => gap p.yStart p.yEnd ny)
    (fun i g1 g2 => ⟨hco .x _ _ i (by omega), ⟨rfl, h1⟩, rfl, h1⟩) (fun i g1 g2 => ⟨hco .y _ _ i (by omega), ⟨rfl, h2⟩, rfl, h2⟩)
    ⟨fun _ _ _ => le_refl _, 1, by omega, by omega, rfl⟩ ⟨fun _ _ _ => le_refl _, 1, by omega, by omega, rfl⟩ hceil h.pos h.tb temp
    junk ho hos
    (by
      intro k i j hi hj
      refine step_torus ?_ ?_ ?_ k i j hi hj
      · intro i r c l
        rw [incOf_eq h1 h1 (l := fun _ => gap p.xStart p.xEnd nx) (r := fun _ => gap p.xStart p.xEnd nx) rfl rfl, coefX, secondDiff]
        field_simp
        ring
      · intro j r c l
        rw [incOf_eq h2 h2 (l := fun _ => gap p.yStart p.yEnd ny) (r := fun _ => gap p.yStart p.yEnd ny) rfl rfl, coefY, secondDiff]
        field_simp
        ring
      · intro i j _ _
        simp only [initialHeat]
        push_cast
        congr 2 <;> ring)
    hP hPb
  refine ⟨mem, v, ?_, m2⟩
  rw [mainDistancesShown, h.enx, h.eny, hi1, Res.ok_bind]
  simp only [axis_ok, Res.ok_bind, hi2, m1]

variable {disX disY : Nat → K} {mx my : K}

/-- What `non_uniform_heat_equation.cpp` shows. -/
theorem C87_non_uniform [FloorRing K] (h : MeshSetting p disX disY nx ny M mx my) (hP : 0 < P) (hPb : P < 2 ^ 63) (temp : K → K → K) (junk : Nat → K)
    (order : List (List I64)) (ho : order.Perm (Support.policy [BitVec.ofNat 64 nx, BitVec.ofNat 64 ny])) (orders : Nat → Orders)
    (hos : ∀ k, OrdersOk nx ny (orders k)) :
    ∃ mem v, Heat.mainNonUniformShown p (BitVec.ofNat 64 P) disX disY temp junk order orders =
        .ok ((shownSteps P M).map (fun (k : Nat) => shownOf nx ny (p.startTime + k * ((p.endTime - p.startTime) / M))
          ((meshStep p.kx p.ky (timeStepOf p M)
          (leftGap (meshPoint p.xStart p.xEnd disX nx) nx) (rightGap (meshPoint p.xStart p.xEnd disX nx) nx)
          (leftGap (meshPoint p.yStart p.yEnd disY ny) ny) (rightGap (meshPoint p.yStart p.yEnd disY ny) ny) nx ny)^[k]
          (fun i j => temp (meshPoint p.xStart p.xEnd disX nx i) (meshPoint p.yStart p.yEnd disY ny j)))), mem, v) ∧ ∀ i j, i < nx → j < ny →
      View.get mem v [[(Dim.x, BitVec.ofNat 64 (i + 1))], [(Dim.y, BitVec.ofNat 64 (j + 1))]] =
        .ok ((meshStep p.kx p.ky (timeStepOf p M)
          (leftGap (meshPoint p.xStart p.xEnd disX nx) nx) (rightGap (meshPoint p.xStart p.xEnd disX nx) nx)
          (leftGap (meshPoint p.yStart p.yEnd disY ny) ny) (rightGap (meshPoint p.yStart p.yEnd disY ny) ny) nx ny)^[M]
          (fun i j => temp (meshPoint p.xStart p.xEnd disX nx i) (meshPoint p.yStart p.yEnd disY ny j)) i j) := by
  have hx := h.x2; have hy := h.y2
  have hxb := h.xb; have hyb := h.yb
  obtain ⟨x, ex⟩ : ∃ x, x = meshPoint p.xStart p.xEnd disX nx := ⟨_, rfl⟩
  obtain ⟨y, ey⟩ : ∃ y, y = meshPoint p.yStart p.yEnd disY ny := ⟨_, rfl⟩
  have hxm : ∀ i j, i < j → x i < x j := fun i j hij => by rw [ex]; exact meshPoint_lt h.xs h.x2 h.dx hij
  have hym : ∀ i j, i < j → y i < y j := fun i j hij => by rw [ey]; exact meshPoint_lt h.ys h.y2 h.dy hij
  have hgx := h.gx; have hgy := h.gy
  rw [← ex] at hgx
  rw [← ey] at hgy
  have hsp := h.speed_pos
  have hcl := h.cover
  have hts := h.ts
  obtain ⟨hM, hM0⟩ := ceil_least (T := p.endTime - p.startTime) (by linarith) (div_pos one_pos (by linarith)) h.cover h.least
  rw [show 1 / (2 * (p.kx * mx + p.ky * my)) = 1 / 2 / (p.kx * mx + p.ky * my) by rw [div_div]] at hM
  obtain ⟨zx, ezx⟩ : ∃ z, z = ghostOf x (x (nx - 1) - x 0) nx := ⟨_, rfl⟩
  obtain ⟨zy, ezy⟩ : ∃ z, z = ghostOf y (y (ny - 1) - y 0) ny := ⟨_, rfl⟩
  have gx1 := generate_ok h.xs h.x2 h.xb h.dx
  have gy1 := generate_ok h.ys h.y2 h.yb h.dy
  rw [show pointOf p.xStart p.xEnd disX nx = x by rw [ex]; exact funext pointOf_eq] at gx1
  rw [show pointOf p.yStart p.yEnd disY ny = y by rw [ey]; exact funext pointOf_eq] at gy1
  obtain ⟨lx1, rx1⟩ := extrapolate_ok hxm hx
  obtain ⟨ly1, ry1⟩ := extrapolate_ok hym hy
  obtain ⟨ux, ux1, ux2⟩ := nonUniform_ok Dim.x hxm hx (by omega)
  obtain ⟨uy, uy1, uy2⟩ := nonUniform_ok Dim.y hym hy (by omega)
  rw [← ezx] at ux2
  rw [← ezy] at uy2
  have zl : ∀ i, 1 ≤ i → i < nx + 1 → zx i - zx (i - 1) = leftGap x nx (i - 1) := by
    intro i h1 h2
    have := ghost_left (x := x) hx (show i - 1 < nx by omega)
    rwa [show i - 1 + 1 = i by omega, ← ezx] at this
  have zr : ∀ i, 1 ≤ i → i < nx + 1 → zx (i + 1) - zx i = rightGap x nx (i - 1) := by
    intro i h1 h2
    have := ghost_right (x := x) hx (show i - 1 < nx by omega)
    rwa [show i - 1 + 1 = i by omega, ← ezx] at this
  have wl : ∀ i, 1 ≤ i → i < ny + 1 → zy i - zy (i - 1) = leftGap y ny (i - 1) := by
    intro i h1 h2
    have := ghost_left (x := y) hy (show i - 1 < ny by omega)
    rwa [show i - 1 + 1 = i by omega, ← ezy] at this
  have wr : ∀ i, 1 ≤ i → i < ny + 1 → zy (i + 1) - zy i = rightGap y ny (i - 1) := by
    intro i h1 h2
    have := ghost_right (x := y) hy (show i - 1 < ny by omega)
    rwa [show i - 1 + 1 = i by omega, ← ezy] at this
  have zc : ∀ i, 1 ≤ i → i < nx + 1 → zx i = x (i - 1) := by
    intro i h1 h2
    rw [ezx, ghostOf, if_neg (by omega), if_neg (by omega)]
  have wc : ∀ i, 1 ≤ i → i < ny + 1 → zy i = y (i - 1) := by
    intro i h1 h2
    rw [ezy, ghostOf, if_neg (by omega), if_neg (by omega)]
  obtain ⟨mem, v, m1, m2⟩ := solveShown_ok (P := P)
    (w := fun k => (meshStep p.kx p.ky (timeStepOf p M)
          (leftGap (meshPoint p.xStart p.xEnd disX nx) nx) (rightGap (meshPoint p.xStart p.xEnd disX nx) nx)
          (leftGap (meshPoint p.yStart p.yEnd disY ny) ny) (rightGap (meshPoint p.yStart p.yEnd disY ny) ny) nx ny)^[k]
          (fun i j => temp (meshPoint p.xStart p.xEnd disX nx i) (meshPoint p.yStart p.yEnd disY ny j))) (kx := p.kx) (ky := p.ky) (nx := nx) (ny := ny) (M := M) (by omega) (by omega)
    (by omega) (by omega) (by
      have : (nx + 2) * (ny + 2) < 2 ^ 32 * 2 ^ 32 := Nat.mul_lt_mul'' (by omega) (by omega)
      omega) h.ts
    (X := nonUniformSampler ux) (Y := nonUniformSampler uy)
    (xs := fun i => x (i - 1)) (lx := fun i => leftGap x nx (i - 1)) (rx := fun i => rightGap x nx (i - 1))
    (ys := fun i => y (i - 1)) (ly := fun i => leftGap y ny (i - 1)) (ry := fun i => rightGap y ny (i - 1))
    (fun i g1 g2 => by
      obtain ⟨a1, a2, a3⟩ := nonUniform_sampler ux2 g1 g2
      rw [zc i g1 g2] at a1
      rw [zl i g1 g2] at a2
      rw [zr i g1 g2] at a3
      exact ⟨a1, ⟨a2, (gaps_pos hxm hx _).1⟩, a3, (gaps_pos hxm hx _).2⟩)
    (fun i g1 g2 => by
      obtain ⟨a1, a2, a3⟩ := nonUniform_sampler uy2 g1 g2
      rw [wc i g1 g2] at a1
      rw [wl i g1 g2] at a2
      rw [wr i g1 g2] at a3
      exact ⟨a1, ⟨a2, (gaps_pos hym hy _).1⟩, a3, (gaps_pos hym hy _).2⟩)
    (mx := mx) (my := my)
    (by
      obtain ⟨b1, i, b2, b3⟩ := hgx
      exact ⟨fun i h1 h2 => b1 (i - 1) (by omega), i + 1, by omega, by omega, by simpa using b3⟩)
    (by
      obtain ⟨b1, i, b2, b3⟩ := hgy
      exact ⟨fun i h1 h2 => b1 (i - 1) (by omega), i + 1, by omega, by omega, by simpa using b3⟩)
    hM hM0 h.tb temp junk ho hos
    (by
      intro k i j hi hj
      rw [← ex, ← ey]
      refine mesh_torus ?_ ?_ ?_ k i j hi hj
      · intro i hi r c l
        exact incOf_eq (gaps_pos hxm hx i).1 (gaps_pos hxm hx i).2 (by simp) (by simp) r c l
      · intro j hj r c l
        exact incOf_eq (gaps_pos hym hy j).1 (gaps_pos hym hy j).2 (by simp) (by simp) r c l
      · intro i j _ _
        simp)
    hP hPb
  refine ⟨mem, v, ?_, m2⟩
  rw [mainNonUniformShown, h.enx, h.eny, gx1, Res.ok_bind]
  simp only [lx1, rx1, Res.ok_bind, ux1, axis_ok, gy1, ly1, ry1, uy1, m1]

open Finset in
/-- The mean temperature that `uniform_heat_equation.cpp` and `heat_equation.cpp` show is always the initial one. -/
theorem C87_mean [FloorRing K] (h : HeatSetting p nx ny M) (hP : 0 < P) (hPb : P < 2 ^ 63) (temp : K → K → K) (junk : Nat → K)
    (order : List (List I64)) (ho : order.Perm (Support.policy [BitVec.ofNat 64 nx, BitVec.ofNat 64 ny])) (orders : Nat → Orders)
    (hos : ∀ k, OrdersOk nx ny (orders k)) :
    ∃ out mem v mem' v', Heat.mainShown p (BitVec.ofNat 64 P) temp junk order orders = .ok (out, mem, v) ∧
      Heat.mainDistancesShown p (BitVec.ofNat 64 P) temp junk order orders = .ok (out, mem', v') ∧
      ∀ o ∈ out, o.mean = (∑ i ∈ range nx, ∑ j ∈ range ny, initialHeat p nx ny temp i j) / ((nx : K) * ny) := by
  obtain ⟨mem, v, m1, _⟩ := C87_heat h hP hPb temp junk order ho orders hos
  obtain ⟨mem', v', m2, _⟩ := C87_distances h hP hPb temp junk order ho orders hos
  refine ⟨_, mem, v, mem', v', m1, m2, ?_⟩
  intro o hm
  obtain ⟨k, hk, rfl⟩ := List.mem_map.1 hm
  refine congrArg (· / ((nx : K) * ny)) ?_
  clear m1 m2 hm hk
  generalize initialHeat p nx ny temp = u
  induction k generalizing u with
  | zero => rfl
  | succ k ih => exact (ih _).trans (heatStep_sum _ _ nx ny u)

/-- The first output is at the start, the last at the end of the time interval. -/
theorem C87_ends [FloorRing K] (h : HeatSetting p nx ny M) (hP : 0 < P) (hPb : P < 2 ^ 63) (temp : K → K → K) (junk : Nat → K)
    (order : List (List I64)) (ho : order.Perm (Support.policy [BitVec.ofNat 64 nx, BitVec.ofNat 64 ny])) (orders : Nat → Orders)
    (hos : ∀ k, OrdersOk nx ny (orders k)) :
    ∃ out mem v, Heat.mainShown p (BitVec.ofNat 64 P) temp junk order orders = .ok (out, mem, v) ∧
      (out.map Shown.time).head? = some p.startTime ∧ (out.map Shown.time).getLast? = some p.endTime ∧
      (out.map Shown.time).Pairwise (· < ·) := by
  obtain ⟨mem, v, m1, _⟩ := C87_heat h hP hPb temp junk order ho orders hos
  have hM : (0 : K) < M := by exact_mod_cast h.pos
  have hdt : 0 < (p.endTime - p.startTime) / (M : K) := div_pos (by linarith [h.ts]) hM
  refine ⟨_, mem, v, m1, ?_, ?_, ?_⟩
  · rw [shownSteps, List.range_succ_eq_map]; simp [shownOf]
  · rw [shownSteps, List.range_succ]
    simp only [List.filter_append, List.map_append]
    simp [shownOf, mul_div_cancel₀ _ hM.ne']
  · rw [List.map_map, List.pairwise_map]
    refine (List.pairwise_lt_range.filter _).imp ?_
    intro i j hij
    have : (i : K) < j := by exact_mod_cast hij
    simp only [Function.comp, shownOf]
    nlinarith

end heat

/-- The program of C76's example, with the period 3: of its four steps, states 0, 3 and 4 are shown. -/
private def shownParams : Params Rat := ⟨-1, 1, 3, 1 / 10, -1, 1, 3, 1 / 10, 0, 10⟩

private def shownOrders : Orders :=
  ⟨fun _ => MDSpan.indices [3], fun _ => MDSpan.indices [3], fun _ => MDSpan.indices [3], fun _ => MDSpan.indices [3],
    Support.policy [3, 3]⟩

example : HeatSetting shownParams 3 3 4 ∧ OrdersOk 3 3 shownOrders := by
  refine ⟨⟨by decide +kernel, by decide +kernel, by decide +kernel, by decide +kernel, by decide +kernel, rfl, rfl, by omega,
    by omega, by omega, by omega, by omega, ?_, ?_, by omega⟩, ⟨.refl _, .refl _, .refl _, .refl _, .refl _⟩⟩
  · norm_num [shownParams, stableStep, gap]
  · intro m hm
    norm_num [shownParams, stableStep, gap] at hm
    have : (4 : Rat) ≤ m := by linarith
    exact_mod_cast this

example : (do
      let (out, _, _) ← Heat.mainShown shownParams 3 (fun x y => if x = 0 ∧ y = 0 then 16 else 0) (fun _ => 0) (Support.policy [3, 3])
        (fun _ => shownOrders)
      .ok (out.map (fun o => (o.time, o.mean, o.slice, o.values)))) =
    (.ok [(0, 16 / 9, 1, [0, 16, 0]), (15 / 2, 16 / 9, 1, [9 / 4, 1, 9 / 4]), (10, 16 / 9, 1, [25 / 16, 9 / 4, 25 / 16])] :
      Res (List (Rat × Rat × I64 × List Rat))) := by
  decide +kernel

/-- The program of C77's example: one step, of which both states are shown with any period; the mean changes (`C77_not_conserved`). -/
example : MeshSetting meshParams dis10 (fun _ => 0) 3 3 1 (100 / 99) 1 ∧ OrdersOk 3 3 meshOrders := ⟨meshSetting, meshOrdersOk⟩

example : (do
      let (out, _, _) ← Heat.mainNonUniformShown meshParams 10 dis10 (fun _ => 0) (fun x _ => if x = 0 then 1 else 0) (fun _ => 0)
        (Support.policy [3, 3]) (fun _ => meshOrders)
      .ok (out.map (fun o => (o.time, o.mean, o.slice, o.values)))) =
    (.ok [(0, 1 / 3, 1, [1, 0, 0]), (1 / 9, 871 / 2673, 1, [691 / 891, 10 / 99, 10 / 99])] : Res (List (Rat × Rat × I64 × List Rat))) := by
  decide +kernel

end DDC.Props
