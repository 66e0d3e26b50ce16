import Verif.Props.C80
import Verif.Props.C87
import Verif.Model.AdvectionOutput

/-!
# C87 — the output of the advection by characteristics
-/

namespace DDC.Props

open Tup Spec Advection Builder Eval Grid2
open One (seg el vec)
open Heat (Shown)

set_option linter.unusedSectionVars false

variable {K : Type} [Field K] [LinearOrder K] [IsStrictOrderedRing K]

private theorem foldSumA {body : K → Nat → Res K} {f : Nat → K} (n : Nat) (hb : ∀ j, j < n → ∀ s, body s j = .ok (f j + s)) :
    (List.range n).foldlM body 0 = .ok (∑ j ∈ Finset.range n, f j) := by
  induction n with
  | zero => rfl
  | succ n ih =>
    rw [List.range_succ, List.foldlM_append, ih (fun j hj => hb j (by omega)), Res.ok_bind, List.foldlM_cons, hb n (by omega),
      Res.ok_bind, Finset.sum_range_succ, add_comm]
    rfl

private theorem foldListA {body : List K → Nat → Res (List K)} {f : Nat → K} (n : Nat)
    (hb : ∀ j, j < n → ∀ s, body s j = .ok (s ++ [f j])) : (List.range n).foldlM body [] = .ok ((List.range n).map f) := by
  induction n with
  | zero => rfl
  | succ n ih =>
    rw [List.range_succ, List.foldlM_append, ih (fun j hj => hb j (by omega)), Res.ok_bind, List.foldlM_cons, hb n (by omega),
      Res.ok_bind, List.map_append]
    rfl

private theorem leaf1A (t : Advection.Dim) (n j : Nat) :
    Support.leaf (Dom.support (seg t 0 n)) [BitVec.ofInt 64 (0 + (j : Int))] = .ok (el t j) := by
  have : Support.leaf (Dom.support (seg t 0 n)) [BitVec.ofInt 64 (0 + (j : Int))] = Dom.at' (seg t 0 n) (vec t j) := by
    simp [Support.leaf, Dom.support, seg, vec]
  have hb : Dom.beg (seg t 0 n) = el t 0 := rfl
  rw [this, Dom.at', hb, One.addVec_nat, Nat.zero_add]
  simp [seg, vec]

private theorem leaf2A (n m i j : Nat) :
    Support.leaf (Dom.support (seg2 Dim.x Dim.y 0 n 0 m)) [BitVec.ofInt 64 (0 + (i : Int)), BitVec.ofInt 64 (0 + (j : Int))] =
      .ok (pt Dim.x Dim.y i j) := by
  have : Support.leaf (Dom.support (seg2 Dim.x Dim.y 0 n 0 m))
      [BitVec.ofInt 64 (0 + (i : Int)), BitVec.ofInt 64 (0 + (j : Int))] =
      .ok [(Dim.x, BitVec.ofNat 64 0 + BitVec.ofNat 64 i), (Dim.y, BitVec.ofNat 64 0 + BitVec.ofNat 64 j)] := by
    simp [Support.leaf, Dom.support, seg2, Dom.at', Dom.beg, Elem.addVec, Tup.opAssign, Tup.modify]
  rw [this, ← BitVec.ofNat_add, ← BitVec.ofNat_add, Nat.zero_add, Nat.zero_add]; rfl

private theorem extents2A {n m : Nat} :
    (Dom.support (seg2 Dim.x Dim.y 0 n 0 m)).extents = .ok [(Dim.x, BitVec.ofNat 64 n), (Dim.y, BitVec.ofNat 64 m)] := by
  have : (Dom.support (seg2 Dim.x Dim.y 0 n 0 m)).extents =
      .ok [(Dim.x, BitVec.ofNat 64 n - BitVec.ofNat 64 0), (Dim.y, BitVec.ofNat 64 m - BitVec.ofNat 64 0)] := by
    simp [Dom.support, Dom.extents, seg2, Dom.beg, Dom.fin, Elem.sub, Tup.zipVals, TypeSeq.same, TypeSeq.contains]
  rw [this, One.ofNat_sub (by omega), One.ofNat_sub (by omega)]; rfl

/-- `display` shows the time, the mean and the line at half of the height. -/
private theorem displayA_ok {n m : Nat} (hm0 : 1 ≤ m) (hn : n < 2 ^ 63) (hm : m < 2 ^ 63) (hc : n * m < 2 ^ 64) (time : K)
    {f : Mat K} (fr : f.rows = n) (fc : f.cols = m) : Advection.display time (seg2 .x .y 0 n 0 m) f = .ok (shownOf n m time f.val) := by
  have hxy : Dim.x ≠ Dim.y := by decide
  have hm2 : m / 2 < m := by omega
  have hn1 : (BitVec.ofNat 64 n).toInt = (n : Int) := One.toInt_ofNat (by omega)
  have hn2 : (BitVec.ofNat 64 m).toInt = (m : Int) := One.toInt_ofNat (by omega)
  have h1 : Support.transformReduce (Dom.support (seg2 Dim.x Dim.y 0 n 0 m)) (0 : K) (fun a b => .ok (Reducer.sum a b)) (fun e => (do
      let (i, j) ← place (seg2 Dim.x Dim.y 0 n 0 m) e
      f.rd i j : Res K)) = .ok (∑ i ∈ Finset.range n, ∑ j ∈ Finset.range m, f.val i j) := by
    rw [Support.transformReduce, extents2A, Res.ok_bind]
    simp only [vals, List.map_cons, List.map_nil, Support.transformReduceSerial, List.nil_append, List.cons_append, hn1, hn2]
    rw [Support.loop_eq n _ n 0 (by omega), foldSumA (f := fun i => ∑ j ∈ Finset.range m, f.val i j) n]
    · rfl
    · intro i hi c
      rw [Support.loop_eq m _ m 0 (by omega), foldSumA (f := fun j => f.val i j) m]
      · rfl
      · intro j hj c
        rw [leaf2A, Res.ok_bind, place_at hn hm hi hj]
        simp only [Res.ok_bind, Mat.rd, fr, fc, hi, hj, and_self, if_true]
        rfl
  obtain ⟨z, z1, z2⟩ := Dom.size_ok (seg2 Dim.x Dim.y 0 n 0 m) (seg2_valid hxy (by omega) hn (by omega) hm)
  rw [card_seg2 hxy (by omega) (by omega) (by omega) (by omega), Nat.mod_eq_of_lt (by simpa using hc), Nat.sub_zero, Nat.sub_zero] at z2
  have hsel : ∀ q : Advection.Dim, q = .x ∨ q = .y → ∀ b, get q (seg2 Dim.x Dim.y 0 n 0 m) = .ok (BitVec.ofNat 64 0, BitVec.ofNat 64 b) →
      Dom.ofDomains [q] [seg2 Dim.x Dim.y 0 n 0 m] = .ok (seg q 0 b) := by
    intro q hq b hb
    have hmem : q ∈ tags (seg2 Dim.x Dim.y 0 n 0 m) := by rcases hq with rfl | rfl <;> simp [seg2]
    obtain ⟨r, r1, r2, r3⟩ := Dom.ofDomains_ok (qs := [q]) (ds := [seg2 Dim.x Dim.y 0 n 0 m]) (by simp)
      (by rcases hq with rfl | rfl <;> simp [seg2])
      (fun q' hq' => Dom.ownedOnce_singleton (by simp at hq'; subst hq'; exact hmem))
    have hr : r = seg q 0 b := eq_seg r2 (by
      rw [r3 q (by simp) _ (List.mem_singleton.2 rfl) hmem, hb])
    rw [r1, hr]
  have hy := hsel .y (Or.inr rfl) m (get_seg2_y hxy)
  have hx := hsel .x (Or.inl rfl) n get_seg2_x
  have hz : Dom.size (seg Dim.y 0 m) = .ok (BitVec.ofNat 64 m) := by
    have : Dom.size (seg Dim.y 0 m) = .ok (BitVec.ofNat 64 m - BitVec.ofNat 64 0) := by
      simp [Dom.size, seg, Dom.sizeAux, Dom.extent, Dom.beg, Dom.fin, Tup.select, Tup.ofTuples, Tup.take, Elem.sub, Tup.zipVals,
        TypeSeq.same, TypeSeq.contains]
    rw [this, One.ofNat_sub (by omega)]; congr 2
  have hid : (BitVec.ofNat 64 m / 2 : U64) = BitVec.ofNat 64 (m / 2) := by
    apply BitVec.eq_of_toNat_eq
    rw [BitVec.toNat_udiv, toNat_small (by omega), toNat_small (by omega)]; rfl
  have hiy : Elem.addVec (Dom.front (seg Dim.y 0 m)) [(Dim.y, BitVec.ofNat 64 (m / 2))] = .ok (el Dim.y (m / 2)) := by
    rw [One.front, ← vec, One.addVec_nat, Nat.zero_add]
  have h5 : Support.forEach (Dom.support (seg Dim.x 0 n)) (fun ix (l : List K) => (do
      let (i, j) ← place (seg2 Dim.x Dim.y 0 n 0 m) (ix ++ el Dim.y (m / 2))
      let v ← f.rd i j
      .ok (l ++ [v]) : Res (List K))) [] = .ok ((List.range n).map (fun i => f.val i (m / 2))) := by
    have he : (Dom.support (seg Dim.x 0 n)).extents = .ok (vec Dim.x n) := by
      have := One.extents_nat Dim.x (Nat.zero_le n)
      rwa [Nat.sub_zero] at this
    rw [Support.forEach, he, Res.ok_bind]
    simp only [vec, vals, List.map_cons, List.map_nil, Support.forEachSerial, List.nil_append, hn1]
    rw [Support.loop_eq n _ n 0 (by omega), foldListA (f := fun i => f.val i (m / 2)) n]
    · rfl
    · intro i hi l
      have : el Dim.x i ++ el Dim.y (m / 2) = pt Dim.x Dim.y i (m / 2) := rfl
      rw [leaf1A, Res.ok_bind, this, place_at hn hm hi (by omega)]
      simp only [Res.ok_bind, Mat.rd, fr, fc, hi, hm2, and_self, if_true]
  rw [Advection.display, h1, Res.ok_bind, z1, Res.ok_bind, hy, Res.ok_bind, hz]
  simp only [Res.ok_bind, hid, hiy, hx, h5, z2, shownOf]
  push_cast
  rfl

variable [FloorRing K]

/-- A round keeps the shapes and the last density, and relates the next density to it. -/
private theorem round_shown {L : Lapack K} {B : Builder K} {s : Side K} {coord : Elem Unit → Res K} {vx dt : K} {R N M : Nat} {xs : Nat → K}
    {Q P : (Nat → K) → (Nat → K) → Prop} (hN : N < 2 ^ 63) (hM : M < 2 ^ 63) (hX : ∀ i, i < N → coord (el () i) = .ok (xs i))
    (hB : Builds L B R N Q)
    (hE : ∀ (last : Nat → K) (c : Mat K) (j : Nat), c.rows = R → c.cols = M → j < M → Q last (fun J => c.val J j) →
      ∃ f : Nat → K, (∀ i, i < N → eval1 s (xs i - vx * dt) (column c j) = .ok (f i)) ∧
        ∀ g : Nat → K, (∀ i, i < N → g i = f i) → P last g)
    {r : Round K} (hord : r.order.Perm (Support.policy [BitVec.ofNat 64 N, BitVec.ofNat 64 M]))
    (hb : r.build.Valid) (he : r.eval.Valid) (q : Chunks K)
    (h1 : q.last.rows = N ∧ q.last.cols = M) (h2 : q.next.rows = N ∧ q.next.cols = M) (h3 : q.coef.rows = R ∧ q.coef.cols = M)
    (h4 : q.feet.rows = N ∧ q.feet.cols = M) :
    ∃ q' : Chunks K, Advection.round L B s coord vx dt (seg2 .x .y 0 N 0 M) r q = .ok q' ∧ q'.last = q.last ∧
      (q'.next.rows = N ∧ q'.next.cols = M) ∧ (q'.coef.rows = R ∧ q'.coef.cols = M) ∧ (q'.feet.rows = N ∧ q'.feet.cols = M) ∧
      ∀ j, j < M → P (fun x => q.last.val x j) fun x => q'.next.val x j := by
  obtain ⟨feet', f1, f2, f3, f4⟩ := feet_ok hN hM hX vx dt hord q.feet h4.1 h4.2
  obtain ⟨c, c1, c2, c3, c4⟩ := hB _ hb r.junk q.coef q.last h3.1 h1.1 (by rw [h1.2, h3.2])
  rw [h3.2] at c3 c4
  have hf : ∀ j, ∃ f : Nat → K, j < M → (∀ i, i < N → eval1 s (xs i - vx * dt) (column c j) = .ok (f i)) ∧
      ∀ g : Nat → K, (∀ i, i < N → g i = f i) → P (fun k => q.last.val k j) g := by
    intro j
    by_cases hj : j < M
    · obtain ⟨f, a1, a2⟩ := hE _ c j c2 c3 hj (c4 j hj)
      exact ⟨f, fun _ => ⟨a1, a2⟩⟩
    · exact ⟨fun _ => 0, fun h => absurd h hj⟩
  choose f hf using hf
  obtain ⟨next', n1, n2, n3, n4⟩ := C42_mesh he (s := s) (coords := feet') (coef := c) (out := q.next)
    (by rw [f2, h2.1]) (by rw [f3, h2.2]) (f := fun i j => f j i) (by
      intro i j hi hj
      rw [h2.1] at hi
      rw [h2.2] at hj
      rw [f4 i j hi hj]
      exact (hf j hj).1 i hi)
  rw [h2.1] at n2 n4
  rw [h2.2] at n3 n4
  refine ⟨⟨q.last, next', c, feet'⟩, ?_, rfl, ⟨n2, n3⟩, ⟨c2, c3⟩, ⟨f2, f3⟩, ?_⟩
  · rw [Advection.round, f1, Res.ok_bind, c1, Res.ok_bind, n1, Res.ok_bind]
  · intro j hj
    exact (hf j hj).2 _ fun i hi => n4 i j hi hj

/-- What `characteristics_advection.cpp` shows, whatever the orders of its kernels: states `0`, `P`, `2 P`... and `M`, each with its time,
the mean density and the densities on the line at half of the height; each step advects each line (`C80_advects`).  The size of the
domain has to fit in its type. -/
theorem C87_advection {L : Lapack K} (hL : L.Exact) {periodic : Bool} {p : Params K} {n m M P : Nat}
    (h : AdvectionSetting periodic p n m M) (hcells : gridCount periodic n * m < 2 ^ 64) (hP : 0 < P) (hPb : P < 2 ^ 63)
    (density : K → K → K) (junk : Nat → Nat → Nat → K) (order : List (List I64))
    (ho : order.Perm (Support.policy [BitVec.ofNat 64 (gridCount periodic n), BitVec.ofNat 64 m])) (setup : Sched)
    (hs : setup.Valid) (rounds : Nat → Round K)
    (hr : ∀ k, (rounds k).order.Perm (Support.policy [BitVec.ofNat 64 (gridCount periodic n), BitVec.ofNat 64 m]))
    (hb : ∀ k, (rounds k).build.Valid) (he : ∀ k, (rounds k).eval.Valid) :
    ∃ d : Nat → Nat → Nat → K, ∃ r, Advection.mainShown L periodic p (BitVec.ofNat 64 P) density junk order setup rounds =
        .ok ((shownSteps P M).map (fun (k : Nat) =>
          shownOf (gridCount periodic n) m (p.startTime + k * ((p.endTime - p.startTime) / M)) (d k)), r) ∧
      (∀ i j, i < gridCount periodic n → j < m → d 0 i j =
        density (gridPoint periodic p.xStart p.xEnd n i) (p.yStart + j * ((p.yEnd - p.yStart) / (m - 1 : Nat)))) ∧
      (∀ k, k < M → ∀ j, j < m → ∃ c, Advected periodic p.xStart p.xEnd n (p.vx * advectionStep p M) (1 / (2 * 10 ^ 12))
        (fun i => d k i j) (fun i => d (k + 1) i j) c) ∧
      r.val = d M := by
  have hn2 := h.n2
  have hnb := h.nb
  have hm2 := h.m2
  have hmb := h.mb
  obtain ⟨hceil, hM⟩ := h.ceil
  have htb := h.tb
  have hxy : Dim.x ≠ Dim.y := by decide
  have hN : gridCount periodic n ≤ n + 3 := by rw [gridCount]; split <;> omega
  have eu : UBS.mk' 3 periodic p.xStart p.xEnd (BitVec.ofNat 64 n) = .ok (ubs 3 periodic p.xStart p.xEnd n) :=
    UBS.mk'_ok (by norm_num) periodic h.xs (by omega) (by omega)
  obtain ⟨coord, B, s1, s2, s3, s4, s5, s6⟩ := advection_ready periodic h.xs hn2 h.np hnb hL hs
  have i2 := Spectral.init_nat Dim.y p.yStart p.yEnd h.ys m (by omega) hmb
  have i3 := Spectral.init_nat Dim.t p.startTime p.endTime h.ts (M + 1) (by omega) h.tb
  rw [Nat.add_sub_cancel] at i3
  have hmn : (BitVec.ofNat 64 m).toNat = m := toNat_small hmb
  have hgn : (BitVec.ofNat 64 (gridCount periodic n)).toNat = gridCount periodic n := toNat_small (by omega)
  have hn3 : (BitVec.ofNat 64 (n + 3)).toNat = n + 3 := toNat_small (by omega)
  have z1 : Dom.size (seg () 0 (gridCount periodic n)) = .ok (BitVec.ofNat 64 (gridCount periodic n)) := by
    simpa using seg_size (x := 0) (y := gridCount periodic n) (by omega)
  have z2 : Dom.size (seg Dim.y 0 m) = .ok (BitVec.ofNat 64 m) := by
    rw [Dom.size, seg]
    simp [Dom.sizeAux, Dom.extent, Dom.beg, Dom.fin, Tup.select, Tup.ofTuples, Tup.take, Elem.sub, Tup.zipVals,
      TypeSeq.same, TypeSeq.contains]
  have z3 : Dom.size (seg () 0 (n + 3)) = .ok (BitVec.ofNat 64 (n + 3)) := by
    simpa using seg_size (x := 0) (y := n + 3) (by omega)
  obtain ⟨f, f1, f2, f3, f4⟩ := Advection.initial_ok (K := K) (N := gridCount periodic n) (M := m) (by omega) hmb s3
    (uy := ⟨p.yStart, (p.yEnd - p.yStart) / ((m - 1 : Nat) : K), el Dim.y 0⟩)
    (ys := fun j => p.yStart + j * ((p.yEnd - p.yStart) / (m - 1 : Nat)))
    (fun j hj => coordinate_ok Dim.y _ _ (lt_trans hj hmb)) density ho ⟨gridCount periodic n, m, junk 0⟩ rfl rfl
  obtain ⟨N, eN⟩ : ∃ N, N = gridCount periodic n := ⟨_, rfl⟩
  obtain ⟨Shape, hShape⟩ : ∃ Shape : Chunks K → Prop, Shape = fun q => (q.last.rows = N ∧ q.last.cols = m) ∧
    (q.next.rows = N ∧ q.next.cols = m) ∧ (q.coef.rows = n + 3 ∧ q.coef.cols = m) ∧ (q.feet.rows = N ∧ q.feet.cols = m) := ⟨_, rfl⟩
  obtain ⟨step, hstep⟩ : ∃ step : Nat → Chunks K → Res (Chunks K), step = fun i s =>
    Advection.round L B ⟨.uniform (ubs 3 periodic p.xStart p.xEnd n), rule periodic, rule periodic⟩ coord p.vx (advectionStep p M)
      (seg2 .x .y 0 N 0 m) (rounds i) s := ⟨_, rfl⟩
  have hround : ∀ i q, ∃ q', Shape q → step i q = .ok q' ∧ Shape q' ∧ q'.last = q.last ∧
      ∀ j, j < m → ∃ c, Advected periodic p.xStart p.xEnd n (p.vx * advectionStep p M) (1 / (2 * 10 ^ 12))
        (fun x => q.last.val x j) (fun x => q'.next.val x j) c := by
    intro i q
    by_cases hq : Shape q
    · have hq' := hq
      rw [hShape] at hq'
      obtain ⟨q1, q2, q3, q4⟩ := hq'
      rw [eN] at q1 q2 q4
      obtain ⟨q', g1, g2, g3, g4, g5, g6⟩ := round_shown (K := K) (dt := advectionStep p M) (vx := p.vx) (by omega) hmb s3 s6
        (s := ⟨.uniform (ubs 3 periodic p.xStart p.xEnd n), rule periodic, rule periodic⟩)
        (P := fun last next => ∃ c, Advected periodic p.xStart p.xEnd n (p.vx * advectionStep p M) (1 / (2 * 10 ^ 12)) last next c)
        (by
          intro last c j hc1 hc2 hj hQ
          obtain ⟨g, g1, g2, g3, g4⟩ := advection_eval periodic h.xs (by omega) hnb hc1 hc2 hj hQ.2 (p.vx * advectionStep p M)
          refine ⟨g, g1, fun g' hg' => ⟨fun J => c.val J j, hQ.1, hQ.2, ?_, ?_, ?_⟩⟩
          · intro hp i hi k y y1 y2 hy
            rw [hg' i hi]; exact g2 hp i hi k y y1 y2 hy
          · intro hp i hi y1 y2
            rw [hg' i hi]; exact g3 hp i hi y1 y2
          · intro hp i hi y1
            rw [hg' i hi]; exact g4 hp i hi y1) (hr i) (hb i) (he i) q q1 q2 q3 q4
      rw [hShape, hstep, eN]
      exact ⟨q', fun _ => ⟨g1, ⟨by rw [g2]; exact q1, g3, g4, g5⟩, g2, g6⟩⟩
    · exact ⟨q, fun h => absurd h hq⟩
  choose nx hnx using hround
  obtain ⟨swap, hswap⟩ : ∃ swap : Chunks K → Chunks K, swap = fun s => ⟨s.next, s.last, s.coef, s.feet⟩ := ⟨_, rfl⟩
  obtain ⟨q0, hq0⟩ : ∃ q0 : Chunks K, q0 = ⟨f, ⟨N, m, junk 1⟩, ⟨n + 3, m, junk 2⟩, ⟨N, m, junk 3⟩⟩ := ⟨_, rfl⟩
  obtain ⟨st, st0, st1⟩ : ∃ st : Nat → Chunks K, st 0 = q0 ∧ ∀ k, st (k + 1) = swap (nx k (st k)) :=
    ⟨fun k => Nat.rec q0 (fun k s => swap (nx k s)) k, rfl, fun _ => rfl⟩
  have hsh : ∀ k, Shape (st k) := by
    intro k
    induction k with
    | zero => rw [st0, hq0, hShape, eN]; exact ⟨⟨f2, f3⟩, ⟨rfl, rfl⟩, ⟨rfl, rfl⟩, rfl, rfl⟩
    | succ k ih =>
      have := ((hnx k (st k)) ih).2.1
      rw [hShape] at this
      rw [st1, hShape, hswap]
      exact ⟨this.2.1, this.1, this.2.2⟩
  have hshow : ∀ (k : Nat), k ≤ M → ∀ g : Mat K, g = (st k).last →
      (do let t ← (⟨p.startTime, (p.endTime - p.startTime) / (M : K), el Dim.t 0⟩ : Uniform Dim K).coordinate (el Dim.t (0 + k))
          Advection.display t (seg2 .x .y 0 N 0 m) g : Res (Shown K)) =
        .ok (shownOf N m (p.startTime + k * ((p.endTime - p.startTime) / M)) (st k).last.val) := by
    intro k hk g hg
    have hq := hsh k
    rw [hShape] at hq
    have hc : (⟨p.startTime, (p.endTime - p.startTime) / (M : K), el Dim.t 0⟩ : Uniform Dim K).coordinate (el Dim.t k) =
        .ok (p.startTime + k * ((p.endTime - p.startTime) / M)) := coordinate_ok Dim.t _ _ (by omega)
    rw [Nat.zero_add, hc, Res.ok_bind, hg, displayA_ok (by omega) (by omega) hmb (by rw [eN]; exact hcells) _ hq.1.1 hq.1.2]
  obtain ⟨s', b1, b2⟩ := C87_schedule (S := Chunks K) (O := Shown K) (t := Dim.t) (a := 0) (N := M)
    (P := P) (s := q0) (step := step)
    (showNext := fun iter s => do
      let t ← (⟨p.startTime, (p.endTime - p.startTime) / (M : K), el Dim.t 0⟩ : Uniform Dim K).coordinate iter
      Advection.display t (seg2 .x .y 0 N 0 m) s.next)
    (showLast := fun iter s => do
      let t ← (⟨p.startTime, (p.endTime - p.startTime) / (M : K), el Dim.t 0⟩ : Uniform Dim K).coordinate iter
      Advection.display t (seg2 .x .y 0 N 0 m) s.last)
    (swap := swap)
    (Inv := fun k q => q = st k) (Inv' := fun k q => swap q = st k)
    (o := fun (k : Nat) => shownOf N m (p.startTime + k * ((p.endTime - p.startTime) / M)) (st k).last.val)
    hP hPb (by omega)
    (by
      rintro i q hi rfl
      exact ⟨nx i (st i), ((hnx i (st i)) (hsh i)).1, (st1 i).symm⟩)
    (fun i q hq => hq)
    (by
      intro i q hi hq
      exact hshow i hi _ (by rw [← hq, hswap]))
    (by
      intro i q hi hq
      exact hshow i hi _ (by rw [hq]))
    st0.symm
  rw [Nat.zero_add] at b1
  refine ⟨fun k => (st k).last.val, s'.last, ?_, ?_, ?_, by rw [b2]⟩
  · have hadd : Vect.addInt [(Dim.t, BitVec.ofNat 64 M)] 1 = .ok [(Dim.t, BitVec.ofNat 64 (M + 1))] := by
      have : (1 : I64) = BitVec.ofNat 64 1 := rfl
      rw [Vect.addInt, this, One.sAdd_nat h.tb]; rfl
    have e1 : [(Dim.t, (1 : I64))] = vec Dim.t 1 := rfl
    rw [hstep, hswap, hq0, eN] at b1
    rw [Advection.mainShown, h.enx, h.eny, eu, Res.ok_bind]
    simp only [s1, s2, Res.ok_bind, i2, Heat.ceilCast_ok hceil (show M < 2 ^ 63 by omega), hadd, i3, name_seg,
      Spectral.ofDomains_two hxy, z1, z2, hmn, hgn, f1, s5, ubs_full, z3, hn3, e1, shownSteps]
    rw [advectionStep] at b1
    rw [b1]
    simp only [Res.ok_bind]
  · intro i j hi hj
    show (st 0).last.val i j = _
    rw [st0, hq0, f4 i j hi hj]
  · intro k hk j hj
    obtain ⟨c, hc⟩ := ((hnx k (st k)) (hsh k)).2.2.2 j hj
    refine ⟨c, ?_⟩
    show Advected _ _ _ _ _ _ (fun i => (st k).last.val i j) (fun i => (st (k + 1)).last.val i j) c
    rw [st1, hswap]
    exact hc

/-- The mean shown by the periodic program at step `k` is the initial one up to `8 k n W / 10^12`, where `W^2` bounds the sums of the
squares of the initial density along the lines: the coefficients of the builder are those of a matrix whose small entries are dropped. -/
theorem C87_advection_mean {L : Lapack K} (hL : L.Exact) {p : Params K} {n m M P : Nat}
    (h : AdvectionSetting true p n m M) (hcells : n * m < 2 ^ 64) (hP : 0 < P) (hPb : P < 2 ^ 63)
    (density : K → K → K) (junk : Nat → Nat → Nat → K) (order : List (List I64))
    (ho : order.Perm (Support.policy [BitVec.ofNat 64 n, BitVec.ofNat 64 m])) (setup : Sched)
    (hs : setup.Valid) (rounds : Nat → Round K)
    (hr : ∀ k, (rounds k).order.Perm (Support.policy [BitVec.ofNat 64 n, BitVec.ofNat 64 m]))
    (hb : ∀ k, (rounds k).build.Valid) (he : ∀ k, (rounds k).eval.Valid) {W : K} (hW0 : 0 ≤ W)
    (hW : ∀ j, j < m → ∑ i ∈ Finset.range n, startDensity p density n m i j ^ 2 ≤ W ^ 2) (hM : 4 * M * n ^ 2 ≤ 10 ^ 11) :
    ∃ o r, Advection.mainShown L true p (BitVec.ofNat 64 P) density junk order setup rounds = .ok ((shownSteps P M).map o, r) ∧
      ∀ k, k ≤ M → |(o k).mean - (∑ i ∈ Finset.range n, ∑ j ∈ Finset.range m, startDensity p density n m i j) / ((n : K) * m)| ≤
        8 * k * n * W / 10 ^ 12 := by
  obtain ⟨h3, h4⟩ := h.np rfl
  have hm2 := h.m2
  obtain ⟨d, r, r1, r2, r3, -⟩ := C87_advection (P := P) hL h hcells hP hPb density junk order ho setup hs rounds hr hb he
  refine ⟨_, r, r1, ?_⟩
  intro k hk
  have hn0 : (0 : K) < n := by exact_mod_cast (by omega : 0 < n)
  have hm0 : (0 : K) < m := by exact_mod_cast (by omega : 0 < m)
  have hg : gridCount true n = n := if_pos rfl
  have d0 : ∀ i j, i < n → j < m → d 0 i j = startDensity p density n m i j := by
    intro i j hi hj
    rw [r2 i j hi hj, startDensity, gridPoint, if_pos rfl]
  have key : ∀ j, j < m → ∀ k : Nat, k ≤ M →
      |∑ i ∈ Finset.range n, d k i j - ∑ i ∈ Finset.range n, d 0 i j| ≤ k * (8 * n ^ 2 * W / 10 ^ 12) := by
    intro j hj k
    have hd : ∀ k, k < M → ∃ c, Advected true p.xStart p.xEnd n (p.vx * advectionStep p M) (1 / (2 * 10 ^ 12)) ((fun k i => d k i j) k)
        ((fun k i => d k i j) (k + 1)) c := fun k hk => r3 k hk j hj
    have hbd := run_bound h.xs h3 h4 hd hW0 (by
      rw [Finset.sum_congr rfl fun i hi => by rw [d0 i j (Finset.mem_range.1 hi) hj]]; exact hW j hj) hM
    induction k with
    | zero => intro _; simp
    | succ k ih =>
      intro hk
      obtain ⟨c, hc⟩ := hd k (by omega)
      have h5 := advected_mass h.xs h3 h4 hc (hbd k (by omega))
      have h6 := ih (by omega)
      have h7 := abs_sub_le (∑ i ∈ Finset.range n, d (k + 1) i j) (∑ i ∈ Finset.range n, d k i j) (∑ i ∈ Finset.range n, d 0 i j)
      push_cast
      rw [show 4 * (n : K) ^ 2 * (2 * W) / 10 ^ 12 = 8 * n ^ 2 * W / 10 ^ 12 by ring] at h5
      linarith
  have e0 : ∑ i ∈ Finset.range n, ∑ j ∈ Finset.range m, startDensity p density n m i j =
      ∑ j ∈ Finset.range m, ∑ i ∈ Finset.range n, d 0 i j := by
    rw [Finset.sum_comm]
    exact Finset.sum_congr rfl fun j hj => Finset.sum_congr rfl fun i hi =>
      (d0 i j (Finset.mem_range.1 hi) (Finset.mem_range.1 hj)).symm
  have ek : (shownOf (gridCount true n) m (p.startTime + k * ((p.endTime - p.startTime) / M)) (d k)).mean =
      (∑ j ∈ Finset.range m, ∑ i ∈ Finset.range n, d k i j) / ((n : K) * m) := by
    simp only [shownOf, hg]
    rw [Finset.sum_comm]
  have hnm : (0 : K) < n * m := mul_pos hn0 hm0
  rw [ek, e0, ← sub_div, abs_div, abs_of_pos hnm, div_le_iff₀ hnm, ← Finset.sum_sub_distrib]
  refine (Finset.abs_sum_le_sum_abs _ _).trans ((Finset.sum_le_sum (g := fun _ => k * (8 * n ^ 2 * W / 10 ^ 12)) fun j hj =>
    key j (Finset.mem_range.1 hj) k hk).trans (le_of_eq ?_))
  rw [Finset.sum_const, Finset.card_range, nsmul_eq_mul]
  ring

/-- The program shows eleven states, at the times `0`, `1`, ..., `10`. -/
example {L : Lapack Rat} (hL : L.Exact) (periodic : Bool) (density : Rat → Rat → Rat) (σ : Sched) (hσ : σ.Valid) : ∃ out r,
    Advection.mainShown L periodic exampleAdvection 10 density (fun _ _ _ => 0)
      (Support.policy [BitVec.ofNat 64 (gridCount periodic 100), BitVec.ofNat 64 100]) σ
      (fun _ => ⟨Support.policy [BitVec.ofNat 64 (gridCount periodic 100), BitVec.ofNat 64 100], σ, fun _ _ => 0, σ⟩) = .ok (out, r) ∧
    out.map (fun o => o.time) = [0, 1, 2, 3, 4, 5, 6, 7, 8, 9, 10] := by
  obtain ⟨d, r, e, -⟩ := C87_advection (P := 10) hL (exampleAdvection_setting periodic) (by cases periodic <;> simp [gridCount]) (by norm_num)
    (by norm_num) density (fun _ _ _ => 0) _ (List.Perm.refl _) σ hσ
    (fun _ => ⟨_, σ, fun _ _ => 0, σ⟩) (fun _ => List.Perm.refl _) (fun _ => hσ) (fun _ => hσ)
  refine ⟨_, r, e, ?_⟩
  have hs : shownSteps 10 100 = [0, 10, 20, 30, 40, 50, 60, 70, 80, 90, 100] := by decide +kernel
  rw [hs]
  norm_num [shownOf, exampleAdvection]

/-- The mean is kept up to `10^-7` in its hundred steps if the sums of the squares are at most `1`. -/
example {L : Lapack Rat} (hL : L.Exact) (density : Rat → Rat → Rat) (σ : Sched) (hσ : σ.Valid)
    (hW : ∀ j, j < 100 → ∑ i ∈ Finset.range 100, startDensity exampleAdvection density 100 100 i j ^ 2 ≤ 1 ^ 2) : ∃ o r,
    Advection.mainShown L true exampleAdvection 10 density (fun _ _ _ => 0)
      (Support.policy [BitVec.ofNat 64 100, BitVec.ofNat 64 100]) σ
      (fun _ => ⟨Support.policy [BitVec.ofNat 64 100, BitVec.ofNat 64 100], σ, fun _ _ => 0, σ⟩) = .ok ((shownSteps 10 100).map o, r) ∧
    |(o 100).mean - (∑ i ∈ Finset.range 100, ∑ j ∈ Finset.range 100, startDensity exampleAdvection density 100 100 i j) / (100 * 100)| ≤
      1 / 10 ^ 7 := by
  obtain ⟨o, r, e, h⟩ := C87_advection_mean (P := 10) hL (exampleAdvection_setting true) (by norm_num) (by norm_num)
    (by norm_num) density (fun _ _ _ => 0) _ (List.Perm.refl _) σ hσ
    (fun _ => ⟨_, σ, fun _ _ => 0, σ⟩) (fun _ => List.Perm.refl _) (fun _ => hσ) (fun _ => hσ) (W := 1) (by norm_num) hW (by norm_num)
  refine ⟨o, r, e, ?_⟩
  have := h 100 le_rfl
  norm_num at this ⊢
  linarith

end DDC.Props
