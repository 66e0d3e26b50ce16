import Verif.Props.C79
import Verif.Props.C87
import Verif.Model.SpectralOutput

/-!
# C87 — the output of the heat equation by Fourier transforms
-/

namespace DDC.Props

open Tup Spec Spectral Grid2 Fourier Finset
open One (seg el vec)
open Heat (Params Shown ceilCast ceilCast_ok)

set_option linter.unusedSectionVars false

private theorem foldSumS {body : ℝ → Nat → Res ℝ} {f : Nat → ℝ} (n : Nat) (hb : ∀ j, j < n → ∀ s, body s j = .ok (f j + s)) :
    (List.range n).foldlM body 0 = .ok (∑ j ∈ Finset.range n, f j) := by
  induction n with
  | zero => rfl
  | succ n ih =>
    rw [List.range_succ, List.foldlM_append, ih (fun j hj => hb j (by omega)), Res.ok_bind, List.foldlM_cons, hb n (by omega),
      Res.ok_bind, Finset.sum_range_succ, add_comm]
    rfl

private theorem foldListS {body : List ℝ → Nat → Res (List ℝ)} {f : Nat → ℝ} (n : Nat)
    (hb : ∀ j, j < n → ∀ s, body s j = .ok (s ++ [f j])) : (List.range n).foldlM body [] = .ok ((List.range n).map f) := by
  induction n with
  | zero => rfl
  | succ n ih =>
    rw [List.range_succ, List.foldlM_append, ih (fun j hj => hb j (by omega)), Res.ok_bind, List.foldlM_cons, hb n (by omega),
      Res.ok_bind, List.map_append]
    rfl

private theorem leaf1S (t : Spectral.Dim) (n j : Nat) :
    Support.leaf (Dom.support (seg t 0 n)) [BitVec.ofInt 64 (0 + (j : Int))] = .ok (el t j) := by
  have : Support.leaf (Dom.support (seg t 0 n)) [BitVec.ofInt 64 (0 + (j : Int))] = Dom.at' (seg t 0 n) (vec t j) := by
    simp [Support.leaf, Dom.support, seg, vec]
  have hb : Dom.beg (seg t 0 n) = el t 0 := rfl
  rw [this, Dom.at', hb, One.addVec_nat, Nat.zero_add]
  simp [seg, vec]

private theorem leaf2S (n m i j : Nat) :
    Support.leaf (Dom.support (seg2 Dim.x Dim.y 0 n 0 m)) [BitVec.ofInt 64 (0 + (i : Int)), BitVec.ofInt 64 (0 + (j : Int))] =
      .ok (pt Dim.x Dim.y i j) := by
  have : Support.leaf (Dom.support (seg2 Dim.x Dim.y 0 n 0 m))
      [BitVec.ofInt 64 (0 + (i : Int)), BitVec.ofInt 64 (0 + (j : Int))] =
      .ok [(Dim.x, BitVec.ofNat 64 0 + BitVec.ofNat 64 i), (Dim.y, BitVec.ofNat 64 0 + BitVec.ofNat 64 j)] := by
    simp [Support.leaf, Dom.support, seg2, Dom.at', Dom.beg, Elem.addVec, Tup.opAssign, Tup.modify]
  rw [this, ← BitVec.ofNat_add, ← BitVec.ofNat_add, Nat.zero_add, Nat.zero_add]; rfl

private theorem extents2S {n m : Nat} :
    (Dom.support (seg2 Dim.x Dim.y 0 n 0 m)).extents = .ok [(Dim.x, BitVec.ofNat 64 n), (Dim.y, BitVec.ofNat 64 m)] := by
  have : (Dom.support (seg2 Dim.x Dim.y 0 n 0 m)).extents =
      .ok [(Dim.x, BitVec.ofNat 64 n - BitVec.ofNat 64 0), (Dim.y, BitVec.ofNat 64 m - BitVec.ofNat 64 0)] := by
    simp [Dom.support, Dom.extents, seg2, Dom.beg, Dom.fin, Elem.sub, Tup.zipVals, TypeSeq.same, TypeSeq.contains]
  rw [this, One.ofNat_sub (by omega), One.ofNat_sub (by omega)]; rfl

/-- `display` shows the time, the mean and the line at half of the height. -/
private theorem displayS_ok {n m : Nat} (hm0 : 1 ≤ m) (hn : n < 2 ^ 63) (hm : m < 2 ^ 63) (hc : n * m < 2 ^ 64) (time : ℝ)
    (f : List Nat → ℝ) : Spectral.display time (seg2 .x .y 0 n 0 m) f = .ok (shownOf n m time (fun i j => f [i, j])) := by
  have hxy : Dim.x ≠ Dim.y := by decide
  have hn1 : (BitVec.ofNat 64 n).toInt = (n : Int) := One.toInt_ofNat (by omega)
  have hn2 : (BitVec.ofNat 64 m).toInt = (m : Int) := One.toInt_ofNat (by omega)
  have h1 : Support.transformReduce (Dom.support (seg2 Dim.x Dim.y 0 n 0 m)) 0 (fun a b => .ok (Reducer.sum a b)) (fun e => (do
      let is ← place (seg2 Dim.x Dim.y 0 n 0 m) e
      .ok (f is) : Res ℝ)) = .ok (∑ i ∈ Finset.range n, ∑ j ∈ Finset.range m, f [i, j]) := by
    rw [Support.transformReduce, extents2S, Res.ok_bind]
    simp only [vals, List.map_cons, List.map_nil, Support.transformReduceSerial, List.nil_append, List.cons_append, hn1, hn2]
    rw [Support.loop_eq n _ n 0 (by omega), foldSumS (f := fun i => ∑ j ∈ Finset.range m, f [i, j]) n]
    · rfl
    · intro i hi c
      rw [Support.loop_eq m _ m 0 (by omega), foldSumS (f := fun j => f [i, j]) m]
      · rfl
      · intro j hj c
        rw [leaf2S, Res.ok_bind, place_pt hxy hn hm hi hj]
        rfl
  obtain ⟨z, z1, z2⟩ := Dom.size_ok (seg2 Dim.x Dim.y 0 n 0 m) (seg2_valid hxy (by omega) hn (by omega) hm)
  rw [card_seg2 hxy (by omega) (by omega) (by omega) (by omega), Nat.mod_eq_of_lt (by simpa using hc), Nat.sub_zero, Nat.sub_zero] at z2
  have hsel : ∀ q : Spectral.Dim, q = .x ∨ q = .y → ∀ b, get q (seg2 Dim.x Dim.y 0 n 0 m) = .ok (BitVec.ofNat 64 0, BitVec.ofNat 64 b) →
      Dom.ofDomains [q] [seg2 Dim.x Dim.y 0 n 0 m] = .ok (seg q 0 b) := by
    intro q hq b hb
    have hmem : q ∈ tags (seg2 Dim.x Dim.y 0 n 0 m) := by rcases hq with rfl | rfl <;> simp [seg2]
    obtain ⟨r, r1, r2, r3⟩ := Dom.ofDomains_ok (qs := [q]) (ds := [seg2 Dim.x Dim.y 0 n 0 m]) (by simp)
      (by rcases hq with rfl | rfl <;> simp [seg2])
      (fun q' hq' => Dom.ownedOnce_singleton (by simp at hq'; subst hq'; exact hmem))
    have hr : r = seg q 0 b := eq_seg r2 (by
      rw [r3 q (by simp) _ (List.mem_singleton.2 rfl) hmem, hb])
    rw [r1, hr]
  have hy := hsel .y (Or.inr rfl) m (get_seg2_y hxy)
  have hx := hsel .x (Or.inl rfl) n get_seg2_x
  have hz : Dom.size (seg Dim.y 0 m) = .ok (BitVec.ofNat 64 m) := by
    have : Dom.size (seg Dim.y 0 m) = .ok (BitVec.ofNat 64 m - BitVec.ofNat 64 0) := by
      simp [Dom.size, seg, Dom.sizeAux, Dom.extent, Dom.beg, Dom.fin, Tup.select, Tup.ofTuples, Tup.take, Elem.sub, Tup.zipVals,
        TypeSeq.same, TypeSeq.contains]
    rw [this, One.ofNat_sub (by omega)]; congr 2
  have hid : (BitVec.ofNat 64 m / 2 : U64) = BitVec.ofNat 64 (m / 2) := by
    apply BitVec.eq_of_toNat_eq
    rw [BitVec.toNat_udiv, toNat_small (by omega), toNat_small (by omega)]; rfl
  have hiy : Elem.addVec (Dom.front (seg Dim.y 0 m)) [(Dim.y, BitVec.ofNat 64 (m / 2))] = .ok (el Dim.y (m / 2)) := by
    rw [One.front, ← vec, One.addVec_nat, Nat.zero_add]
  have h5 : Support.forEach (Dom.support (seg Dim.x 0 n)) (fun ix (l : List ℝ) => (do
      let is ← place (seg2 Dim.x Dim.y 0 n 0 m) (ix ++ el Dim.y (m / 2))
      .ok (l ++ [f is]) : Res (List ℝ))) [] = .ok ((List.range n).map (fun i => f [i, m / 2])) := by
    have he : (Dom.support (seg Dim.x 0 n)).extents = .ok (vec Dim.x n) := by
      have := One.extents_nat Dim.x (Nat.zero_le n)
      rwa [Nat.sub_zero] at this
    rw [Support.forEach, he, Res.ok_bind]
    simp only [vec, vals, List.map_cons, List.map_nil, Support.forEachSerial, List.nil_append, hn1]
    rw [Support.loop_eq n _ n 0 (by omega), foldListS (f := fun i => f [i, m / 2]) n]
    · rfl
    · intro i hi l
      have : el Dim.x i ++ el Dim.y (m / 2) = pt Dim.x Dim.y i (m / 2) := rfl
      rw [leaf1S, Res.ok_bind, this, place_pt hxy hn hm hi (by omega)]
      rfl
  rw [Spectral.display, h1, Res.ok_bind, z1, Res.ok_bind, hy, Res.ok_bind, hz]
  simp only [Res.ok_bind, hid, hiy, hx, h5, z2, shownOf]
  push_cast
  rfl

variable {p : Params ℝ} {n m M P : Nat}

/-- What `heat_equation_spectral.cpp` shows, whatever the orders of its kernels: states `0`, `P`, `2 P`... and `M`.  A mode of state `k`
is that of the initial temperatures times the `k`-th power of the factor of an explicit step of length `spectralStep`, which
determines the state (`C79_determined`); the time shown with it is that of `k` steps of length `(endTime - startTime) / M`. -/
theorem C87_spectral {L : FFT.Library} (hL : Library.Exact L 2) (h : SpectralSetting p n m M) (hP : 0 < P) (hPb : P < 2 ^ 63)
    (temp : ℝ → ℝ → ℝ) (junk junk' : List Nat → ℝ) (order : List (List I64))
    (ho : order.Perm (Support.policy [BitVec.ofNat 64 n, BitVec.ofNat 64 m])) (orders : Nat → List (List I64))
    (hos : ∀ i, (orders i).Perm (Support.policy [BitVec.ofNat 64 n, BitVec.ofNat 64 (m / 2 + 1)])) :
    ∃ (u : Nat → Nat → Nat → ℝ) (r : List Nat → ℝ),
      Spectral.mainShown L p (BitVec.ofNat 64 P) temp junk junk' order orders =
        .ok ((shownSteps P M).map (fun (k : Nat) => shownOf n m (p.startTime + k * ((p.endTime - p.startTime) / M)) (u k)), r) ∧
      (∀ i j, i < n → j < m → u 0 i j = periodicHeat p n m temp i j) ∧
      (∀ s k l, k < n → l < m → spectrum n m (u s) k l =
        (eulerFactor p n m (spectralStep p n m) k l : ℂ) ^ s * spectrum n m (periodicHeat p n m temp) k l) ∧
      ∀ i j, r [i, j] = u M i j := by
  have hx2 := h.x2; have hy2 := h.y2; have hxb := h.xb; have hyb := h.yb
  have hn : (0 : ℝ) < n := by exact_mod_cast (by omega : 0 < n)
  have hm : (0 : ℝ) < m := by exact_mod_cast (by omega : 0 < m)
  obtain ⟨dx, hdx⟩ : ∃ dx, dx = (p.xEnd - p.xStart) / (n : ℝ) := ⟨_, rfl⟩
  obtain ⟨dy, hdy⟩ : ∃ dy, dy = (p.yEnd - p.yStart) / (m : ℝ) := ⟨_, rfl⟩
  have hdx0 : 0 < dx := by rw [hdx]; exact div_pos (by linarith [h.xs]) hn
  have hdy0 : 0 < dy := by rw [hdy]; exact div_pos (by linarith [h.ys]) hm
  have i1 := init_nat Dim.x p.xStart p.xEnd h.xs (n + 1) (by omega) (by omega)
  have i2 := init_nat Dim.y p.yStart p.yEnd h.ys (m + 1) (by omega) (by omega)
  have i3 := init_nat Dim.t p.startTime p.endTime h.ts (M + 1) (by have := h.pos; omega) h.tb
  rw [show n + 1 - 1 = n by omega, ← hdx] at i1
  rw [show m + 1 - 1 = m by omega, ← hdy] at i2
  rw [show M + 1 - 1 = M by omega] at i3
  obtain ⟨fx, fx1, fx2⟩ := wave_ready (ft := Dim.fx) (t := Dim.x) h.xs hx2 hxb
  obtain ⟨fy, fy1, fy2⟩ := wave_ready (ft := Dim.fy) (t := Dim.y) h.ys hy2 hyb
  rw [← hdx] at fx1
  rw [← hdy] at fy1
  obtain ⟨u, hu⟩ : ∃ u : Dim → Uniform Dim ℝ, u = fun t => if t = .y then ⟨p.yStart, dy, el Dim.y 0⟩ else ⟨p.xStart, dx, el Dim.x 0⟩ :=
    ⟨_, rfl⟩
  have hxy : Dim.x ≠ Dim.y := by decide
  have hmesh : UniformMesh u 1 (seg2 Dim.x Dim.y 0 n 0 m) := by
    refine ⟨seg2_valid hxy (by omega) (by omega) (by omega) (by omega), by simp [seg2], ?_, ?_, ?_, ?_⟩ <;>
    · intro t ht
      rw [tags_seg2] at ht
      simp only [List.mem_cons, List.not_mem_nil, or_false] at ht
      rcases ht with rfl | rfl
      all_goals first
        | rw [hu]; rfl
        | (rw [hu]; exact hdx0)
        | (rw [hu]; exact hdy0)
        | (rw [hi_x (by omega)]; omega)
        | (rw [hi_y hxy (by omega)]; omega)
        | (rw [len, hi_x (by omega), lo_x (by omega)]; omega)
        | (rw [len, hi_y hxy (by omega), lo_y hxy (by omega)]; omega)
  have R : Ready L u n m fx fy (waveNumber p.xStart p.xEnd n) (waveNumber p.yStart p.yEnd m) := by
    have hsq : ∀ (a b : ℝ) (n k : Nat), k < n →
        waveNumber a b n ((n - k) % n) * waveNumber a b n ((n - k) % n) = waveNumber a b n k * waveNumber a b n k := by
      intro a b n k hk
      have e : (signedMode n ((n - k) % n) : ℝ) * signedMode n ((n - k) % n) = signedMode n k * signedMode n k := by
        exact_mod_cast signedMode_sq hk
      have e2 : ∀ z : ℝ, 2 * Real.pi * z / (b - a) * (2 * Real.pi * z / (b - a)) = (2 * Real.pi / (b - a)) ^ 2 * (z * z) := by
        intro z; ring
      rw [waveNumber, waveNumber, e2, e2, e]
    exact ⟨hL, hmesh, hx2, hy2, by omega, by omega, fx2, fy2, fun k hk => hsq _ _ _ k hk, fun l hl => hsq _ _ _ l hl⟩
  have hco : ∀ (t : Dim) (a d : ℝ) (i : Nat), i < 2 ^ 63 → (⟨a, d, el t 0⟩ : Uniform Dim ℝ).coordinate (el t i) = .ok (a + (i : ℝ) * d) := by
    intro t a d i hi
    exact coordinate_el rfl hi
  obtain ⟨f, f1, f2⟩ := initial_ok (n := n) (m := m) (by omega) (by omega) (fun i hi => hco .x p.xStart dx i (by omega))
    (fun j hj => hco .y p.yStart dy j (by omega)) temp junk ho
  have hdt : 2 / (p.kx * (Real.pi / dx) * (Real.pi / dx) + p.ky * (Real.pi / dy) * (Real.pi / dy)) = spectralStep p n m := by
    rw [spectralStep, ← hdx, ← hdy]
    congr 1
    ring
  choose F F' nxt g1 g2 g3 g4 using fun k last => round_ok R p.kx p.ky (spectralStep p n m) (hos k) last
  obtain ⟨st, st0, st1⟩ : ∃ st : Nat → List Nat → ℝ, st 0 = f ∧ ∀ k, st (k + 1) = nxt k (st k) :=
    ⟨fun k => Nat.rec f (fun k s => nxt k s) k, rfl, fun _ => rfl⟩
  have hround : ∀ k, Spectral.round L u p.kx p.ky (spectralStep p n m) fx fy (seg2 .x .y 0 n 0 m) (seg2 .fx .fy 0 n 0 (m / 2 + 1)) (orders k) =
      fun s => .ok (s.1, nxt k s.1) := by
    intro k
    funext s
    rw [Spectral.round, g1, Res.ok_bind, g2, Res.ok_bind, g3, Res.ok_bind]
  have hcells : n * m < 2 ^ 64 := lt_of_le_of_lt (Nat.mul_le_mul hxb hyb) (by norm_num)
  have htb := h.tb
  have hshow : ∀ (k : Nat), k ≤ M → ∀ g : List Nat → ℝ,
      (do let t ← (⟨p.startTime, (p.endTime - p.startTime) / (M : ℝ), el Dim.t 0⟩ : Uniform Dim ℝ).coordinate (el Dim.t (0 + k))
          Spectral.display t (seg2 .x .y 0 n 0 m) g : Res (Shown ℝ)) =
        .ok (shownOf n m (p.startTime + k * ((p.endTime - p.startTime) / M)) (fun i j => g [i, j])) := by
    intro k hk g
    rw [Nat.zero_add, hco .t _ _ k (by omega), Res.ok_bind, displayS_ok (by omega) (by omega) (by omega) hcells]
  obtain ⟨s', b1, b2⟩ := C87_schedule (S := (List Nat → ℝ) × (List Nat → ℝ)) (O := Shown ℝ) (t := Dim.t) (a := 0) (N := M)
    (P := P) (s := (f, junk'))
    (step := fun i s => Spectral.round L u p.kx p.ky (spectralStep p n m) fx fy (seg2 .x .y 0 n 0 m) (seg2 .fx .fy 0 n 0 (m / 2 + 1)) (orders i) s)
    (showNext := fun iter s => do
      let t ← (⟨p.startTime, (p.endTime - p.startTime) / (M : ℝ), el Dim.t 0⟩ : Uniform Dim ℝ).coordinate iter
      Spectral.display t (seg2 .x .y 0 n 0 m) s.2)
    (showLast := fun iter s => do
      let t ← (⟨p.startTime, (p.endTime - p.startTime) / (M : ℝ), el Dim.t 0⟩ : Uniform Dim ℝ).coordinate iter
      Spectral.display t (seg2 .x .y 0 n 0 m) s.1)
    (swap := fun s => (s.2, s.1))
    (Inv := fun k q => q.1 = st k) (Inv' := fun k q => q.2 = st k)
    (o := fun (k : Nat) => shownOf n m (p.startTime + k * ((p.endTime - p.startTime) / M)) (fun i j => st k [i, j]))
    hP hPb (by omega)
    (by
      rintro i ⟨l, x⟩ hi hq
      refine ⟨(l, nxt i l), by rw [hround], ?_⟩
      show nxt i l = st (i + 1)
      rw [st1]
      congr 1)
    (fun i q hq => hq)
    (by
      rintro i ⟨l, x⟩ hi hq
      obtain rfl : x = st i := hq
      exact hshow i hi _)
    (by
      rintro i ⟨l, x⟩ hi hq
      obtain rfl : l = st i := hq
      exact hshow i hi _)
    st0.symm
  rw [Nat.zero_add] at b1
  refine ⟨fun k i j => st k [i, j], s'.1, ?_, ?_, ?_, fun i j => by rw [b2]⟩
  · have hadd : Vect.addInt [(Dim.t, BitVec.ofNat 64 M)] 1 = .ok [(Dim.t, BitVec.ofNat 64 (M + 1))] := by
      have : (1 : I64) = BitVec.ofNat 64 1 := rfl
      rw [Vect.addInt, this, One.sAdd_nat h.tb]; rfl
    have e1 : [(Dim.t, (1 : I64))] = vec Dim.t 1 := rfl
    rw [Spectral.mainShown, h.enx, h.eny, i1, Res.ok_bind]
    simp only [removeLast_nat Dim.x n (by omega), removeLast_nat Dim.y m (by omega), Res.ok_bind, i2, hdt,
      ceilCast_ok h.ceil (show M < 2 ^ 63 by have := h.tb; omega), hadd, i3, ofDomains_two hxy, f1, fx1, fy1,
      mesh_nat (show n < 2 ^ 63 by omega) (show m < 2 ^ 63 by omega), ← hu, e1, b1, shownSteps]
  · intro i j hi hj
    show st 0 [i, j] = _
    rw [st0, f2 i j hi hj, periodicHeat, hdx, hdy]
  · intro s k l hk hl
    have hst : ∀ s, dft (-1) [n, m] (fun xs => (st s xs : ℂ)) [k, l] =
        (lam p.kx p.ky (spectralStep p n m) (waveNumber p.xStart p.xEnd n) (waveNumber p.yStart p.yEnd m) [k, l] : ℂ) ^ s *
          dft (-1) [n, m] (fun xs => (f xs : ℂ)) [k, l] := by
      intro s
      induction s with
      | zero => rw [st0, pow_zero, one_mul]
      | succ s ih => rw [st1, g4 s (st s) [k, l] (within_two.2 ⟨k, l, hk, hl, rfl⟩), ih]; ring
    rw [spectrum_dft, hst, ← spectrum_dft]
    congr 1
    · congr 2
      rw [lam, eulerFactor]
      ring
    · refine spectrum_congr (fun i j hi hj => ?_) k l
      rw [f2 i j hi hj, periodicHeat, hdx, hdy]

/-- The mean shown by `heat_equation_spectral.cpp` is always the initial one. -/
theorem C87_spectral_mean {L : FFT.Library} (hL : Library.Exact L 2) (h : SpectralSetting p n m M) (hP : 0 < P) (hPb : P < 2 ^ 63)
    (temp : ℝ → ℝ → ℝ) (junk junk' : List Nat → ℝ) (order : List (List I64))
    (ho : order.Perm (Support.policy [BitVec.ofNat 64 n, BitVec.ofNat 64 m])) (orders : Nat → List (List I64))
    (hos : ∀ i, (orders i).Perm (Support.policy [BitVec.ofNat 64 n, BitVec.ofNat 64 (m / 2 + 1)])) :
    ∃ out r, Spectral.mainShown L p (BitVec.ofNat 64 P) temp junk junk' order orders = .ok (out, r) ∧
      ∀ o ∈ out, o.mean = (∑ i ∈ range n, ∑ j ∈ range m, periodicHeat p n m temp i j) / ((n : ℝ) * m) := by
  have hx2 := h.x2; have hy2 := h.y2
  obtain ⟨u, r, r1, r2, r3, r4⟩ := C87_spectral hL h hP hPb temp junk junk' order ho orders hos
  refine ⟨_, r, r1, ?_⟩
  intro o ho
  obtain ⟨k, -, rfl⟩ := List.mem_map.1 ho
  have h0 := r3 k 0 0 (by omega) (by omega)
  rw [(C79_stable h (show 0 < n by omega) (show 0 < m by omega)).2.1] at h0
  have e : ∀ f : Nat → Nat → ℝ, spectrum n m f 0 0 = ((∑ i ∈ range n, ∑ j ∈ range m, f i j : ℝ) : ℂ) := by
    intro f
    rw [spectrum]
    push_cast
    simp
  rw [e, e, Complex.ofReal_one, one_pow, one_mul] at h0
  have h1 : ∑ i ∈ range n, ∑ j ∈ range m, u k i j = ∑ i ∈ range n, ∑ j ∈ range m, periodicHeat p n m temp i j := by exact_mod_cast h0
  simp only [shownOf, h1]

/-- The time shown with state `k` is not the one that `k` steps of length `spectralStep` have reached, unless these steps divide the
time interval: it is before. -/
theorem C87_spectral_time (h : SpectralSetting p n m M) (k : Nat) :
    p.startTime + k * ((p.endTime - p.startTime) / M) ≤ p.startTime + k * spectralStep p n m ∧
      (p.startTime + k * ((p.endTime - p.startTime) / M) = p.startTime + k * spectralStep p n m ↔
        k = 0 ∨ M * spectralStep p n m = p.endTime - p.startTime) := by
  have hM : (0 : ℝ) < M := by exact_mod_cast h.pos
  have hc := h.cover
  have hd : (p.endTime - p.startTime) / M ≤ spectralStep p n m := by
    rw [div_le_iff₀ hM, mul_comm]; exact hc
  refine ⟨?_, ?_⟩
  · have := mul_le_mul_of_nonneg_left hd (Nat.cast_nonneg (α := ℝ) k)
    linarith
  · constructor
    · intro e
      rcases Nat.eq_zero_or_pos k with h0 | h0
      · exact Or.inl h0
      · right
        have hk : (k : ℝ) ≠ 0 := by exact_mod_cast (by omega : k ≠ 0)
        have := mul_left_cancel₀ hk (add_left_cancel e)
        rw [← this]
        field_simp
    · rintro (rfl | e)
      · simp
      · rw [← e]; field_simp

/-! ## Examples -/

/-- Two by two points at distance 1, conductivities 1: the step is `1 / π²`; half a step of time. -/
private noncomputable def halfParams : Params ℝ := ⟨0, 2, 3, 1, 0, 2, 3, 1, 0, 1 / (2 * Real.pi ^ 2)⟩

private theorem halfStep : spectralStep halfParams 2 2 = 1 / Real.pi ^ 2 := by
  have := Real.pi_ne_zero
  simp only [spectralStep, halfParams]
  norm_num
  field_simp
  norm_num

private theorem halfSetting : SpectralSetting halfParams 2 2 1 := by
  have hp : 0 < Real.pi ^ 2 := pow_pos Real.pi_pos 2
  refine ⟨by norm_num [halfParams], by norm_num [halfParams], ?_, by norm_num [halfParams], by norm_num [halfParams], rfl, rfl,
    by omega, by omega, by omega, by omega, ?_, ?_, by omega⟩
  · simp only [halfParams]; positivity
  · rw [halfStep]
    simp only [halfParams, Nat.cast_one, one_mul, sub_zero]
    exact one_div_le_one_div_of_le hp (by linarith)
  · intro k hk
    rw [halfStep] at hk
    by_contra h0
    obtain rfl : k = 0 := by omega
    simp only [halfParams, Nat.cast_zero, zero_mul, sub_zero] at hk
    have : 0 < 1 / (2 * Real.pi ^ 2) := by positivity
    linarith

/-- The program shows two states, both with the mean 1/2 of the temperature `x`. -/
example : ∃ o o' r, Spectral.mainShown exactLibrary halfParams 10 (fun x _ => x) (fun _ => 0) (fun _ => 0) (Support.policy [2, 2])
      (fun _ => Support.policy [2, 2]) = .ok ([o, o'], r) ∧ o.mean = 1 / 2 ∧ o'.mean = 1 / 2 ∧ o.time = 0 ∧
      o'.time = 1 / (2 * Real.pi ^ 2) := by
  obtain ⟨u, r, r1, -⟩ := C87_spectral (P := 10) (exactLibrary_exact 2) halfSetting (by omega) (by omega) (fun x _ => x) (fun _ => 0)
    (fun _ => 0) (Support.policy [2, 2]) (List.Perm.refl _) (fun _ => Support.policy [2, 2]) (fun _ => List.Perm.refl _)
  obtain ⟨out, r', m1, m2⟩ := C87_spectral_mean (P := 10) (exactLibrary_exact 2) halfSetting (by omega) (by omega) (fun x _ => x)
    (fun _ => 0) (fun _ => 0) (Support.policy [2, 2]) (List.Perm.refl _) (fun _ => Support.policy [2, 2]) (fun _ => List.Perm.refl _)
  have hs : shownSteps 10 1 = [0, 1] := by decide
  have e : (∑ i ∈ range 2, ∑ j ∈ range 2, periodicHeat halfParams 2 2 (fun x _ => x) i j) / (((2 : Nat) : ℝ) * (2 : Nat)) = 1 / 2 := by
    simp only [periodicHeat, halfParams, sum_range_succ, sum_range_zero]
    norm_num
  rw [e] at m2
  rw [r1] at m1
  injection m1 with m1
  rw [Prod.mk.injEq] at m1
  obtain ⟨rfl, rfl⟩ := m1
  rw [hs] at r1 m2
  refine ⟨_, _, r, r1, m2 _ (by simp), m2 _ (by simp), ?_, ?_⟩
  · simp [shownOf, halfParams]
  · simp [shownOf, halfParams]

/-- The last of them with a time that is half of what the step has covered. -/
example : halfParams.startTime + (1 : Nat) * ((halfParams.endTime - halfParams.startTime) / (1 : Nat)) = 1 / (2 * Real.pi ^ 2) ∧
    halfParams.startTime + (1 : Nat) * spectralStep halfParams 2 2 = 1 / Real.pi ^ 2 := by
  rw [halfStep]
  constructor <;> simp [halfParams]

end DDC.Props
