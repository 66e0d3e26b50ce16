import Verif.Lemmas.Advection
import Verif.Lemmas.CubicShift

/-!
# C80 — the advection of the examples by characteristics
-/

namespace DDC.Props

open Tup Spec Advection Builder Eval Grid2
open One (seg el vec)

set_option linter.unusedSectionVars false

variable {K : Type} [Field K] [LinearOrder K] [IsStrictOrderedRing K]

/-- Specification: the number of points along `DDimX`. -/
def gridCount (periodic : Bool) (n : Nat) : Nat := if periodic then n else n + 3

/-- Specification: the points along `DDimX`.  In a periodic dimension they are the `n` first of the ends of the cells; otherwise
they are the ends of the cells and a point at one third of the first cell and of the last one, counted from the ends. -/
def gridPoint (periodic : Bool) (a b : K) (n i : Nat) : K :=
  if periodic then a + i * ((b - a) / n)
  else if i = 0 then a
  else if i = 1 then a + (b - a) / n / 3
  else if i = n + 1 then b - (b - a) / n / 3
  else if i = n + 2 then b
  else a + (i - 1 : Nat) * ((b - a) / n)

/-- Specification: a step of the semi-Lagrangian scheme along a line.  There is a cubic spline (its coefficients are `c`) that
takes the values `last` at the points up to `ε` times the sum of its coefficients, and the values `next` are its values at the
points displaced by `-δ`.  In a periodic dimension the spline is periodic; otherwise it is replaced by zero out of the domain. -/
structure Advected (periodic : Bool) (a b : K) (n : Nat) (δ ε : K) (last next c : Nat → K) : Prop where
  close : ∀ i, i < gridCount periodic n → |splineValue (uniformKnot a b n 3) 3 n c (gridPoint periodic a b n i) - last i| ≤
    ε * ∑ J ∈ Finset.range (n + 3), |c J|
  period : periodic = true → ∀ i, i < 3 → c (n + i) = c i
  shifted : periodic = true → ∀ i, i < gridCount periodic n → ∀ (k : Int) (y : K), a ≤ y → y ≤ b →
    gridPoint periodic a b n i - δ = y + k * (b - a) → next i = splineValue (uniformKnot a b n 3) 3 n c y
  inside : periodic = false → ∀ i, i < gridCount periodic n → a ≤ gridPoint periodic a b n i - δ →
    gridPoint periodic a b n i - δ ≤ b → next i = splineValue (uniformKnot a b n 3) 3 n c (gridPoint periodic a b n i - δ)
  outside : periodic = false → ∀ i, i < gridCount periodic n →
    gridPoint periodic a b n i - δ < a ∨ b < gridPoint periodic a b n i - δ → next i = 0

/-- What is asked of the parameters: the ends are in order, the number of cells is large enough and fits in an `int`, there are
at least two points along `DDimY`, `M` is the least number of time steps whose length does not exceed `maxDt`. -/
structure AdvectionSetting (periodic : Bool) (p : Params K) (n m M : Nat) : Prop where
  xs : p.xStart < p.xEnd
  ys : p.yStart < p.yEnd
  ts : p.startTime < p.endTime
  ds : 0 < p.maxDt
  enx : p.nx = BitVec.ofNat 64 n
  eny : p.ny = BitVec.ofNat 64 m
  n2 : 2 ≤ n
  np : periodic = true → 3 < n ∧ n ≤ 35000
  nb : n + 10 < 2 ^ 31
  m2 : 2 ≤ m
  mb : m < 2 ^ 63
  cover : p.endTime - p.startTime ≤ M * p.maxDt
  least : ∀ k : Nat, p.endTime - p.startTime ≤ k * p.maxDt → M ≤ k
  tb : M + 1 < 2 ^ 63

/-- The time step. -/
def advectionStep (p : Params K) (M : Nat) : K := (p.endTime - p.startTime) / M

theorem AdvectionSetting.ceil [FloorRing K] {periodic : Bool} {p : Params K} {n m M : Nat} (h : AdvectionSetting periodic p n m M) :
    ⌈(p.endTime - p.startTime) / p.maxDt⌉ = (M : Int) ∧ 0 < M := by
  have hp : 0 < M := by
    rcases Nat.eq_zero_or_pos M with h0 | h0
    · have h1 := h.cover
      have h2 := h.ts
      rw [h0, Nat.cast_zero, zero_mul] at h1
      linarith
    · exact h0
  refine ⟨le_antisymm ?_ ?_, hp⟩
  · rw [Int.ceil_le, Int.cast_natCast, div_le_iff₀ h.ds]
    exact h.cover
  · by_contra hlt
    push Not at hlt
    have h3 : ⌈(p.endTime - p.startTime) / p.maxDt⌉ ≤ ((M - 1 : Nat) : Int) := by omega
    rw [Int.ceil_le, Int.cast_natCast, div_le_iff₀ h.ds] at h3
    have := h.least _ h3
    omega

section program

variable [FloorRing K] {a b : K} {n : Nat}

/-- The points of the builder, and the builder. -/
theorem advection_ready (periodic : Bool) (hab : a < b) (n2 : 2 ≤ n) (hnp : periodic = true → 3 < n ∧ n ≤ 35000)
    (hnb : n + 10 < 2 ^ 31) {L : Lapack K} (hL : L.Exact) {σ : Sched} (hσ : σ.Valid) :
    ∃ coord B, sampling (ubs 3 periodic a b n) (sbc periodic) = .ok coord ∧
      (ubs 3 periodic a b n).grevilleDomain (sbc periodic) (sbc periodic) = .ok (seg () 0 (gridCount periodic n)) ∧
      (∀ i, i < gridCount periodic n → coord (el () i) = .ok (gridPoint periodic a b n i)) ∧
      (∀ i, i < gridCount periodic n → a ≤ gridPoint periodic a b n i ∧ gridPoint periodic a b n i ≤ b) ∧
      Builder.mk' L σ (.uniform (ubs 3 periodic a b n)) (sbc periodic) (sbc periodic)
        (seg () 0 (gridCount periodic n)) coord = .ok B ∧
      Builds L B (n + 3) (gridCount periodic n) fun v c =>
        (∀ i, i < gridCount periodic n → |splineValue (uniformKnot a b n 3) 3 n c (gridPoint periodic a b n i) - v i| ≤
          1 / (2 * 10 ^ 12) * ∑ J ∈ Finset.range (n + 3), |c J|) ∧ (periodic = true → ∀ i, i < 3 → c (n + i) = c i) := by
  have hn : 0 < n := by omega
  have eu : UBS.mk' 3 periodic a b (BitVec.ofNat 64 n) = .ok (ubs 3 periodic a b n) :=
    UBS.mk'_ok (by norm_num) periodic hab hn (by omega)
  have hn' : (0 : K) < n := by exact_mod_cast hn
  have h0 : 0 < (b - a) / (n : K) := div_pos (sub_pos.2 hab) hn'
  cases periodic with
  | true =>
    obtain ⟨n3, nbig⟩ := hnp rfl
    have hf : Fits true .periodic .periodic := by rw [Fits, if_pos rfl]; exact ⟨rfl, rfl⟩
    have hun : unknowns true 3 n .periodic .periodic = n := by
      have := unknowns_add (p := 3) (n := n) hf
      simpa [edgeEquations] using this
    have hk : (ubs 3 true a b n).grevilleIsUniform .periodic .periodic = true := (C37_kind _ _).2 (Or.inl rfl)
    have hD := ubs_grevilleDomain (p := 3) (n := n) (a := a) (b := b) hf
    rw [hun] at hD
    have hgr := ubs_grevilleUniform (p := 3) (per := true) hab hn (by omega)
    obtain ⟨B, X, ε, eB, hε, hX, hB⟩ := C41_periodic_partial (p := 3) (by norm_num) hab n3 nbig eu hD
      (by rw [GrevilleCoord, if_pos hk]; exact .inl ⟨_, hgr, rfl⟩) hL hσ
    have hXe : ∀ i, i < n → X i = gridPoint true a b n i := by
      intro i hi
      have h1 := hX.coord i hi
      rw [Nat.zero_add, uniform_coordinate _ _ (by omega)] at h1
      rw [← Res.ok.inj h1, gridPoint, if_pos rfl]
      simp
    rw [hε (by norm_num)] at hB
    refine ⟨_, B, by rw [sampling, sbc, if_pos rfl, hk, if_pos rfl, hgr, Res.ok_bind], hD, ?_, ?_, eB, ?_⟩
    · intro i hi
      rw [← hXe i hi, ← hX.coord i hi, Nat.zero_add]
    · intro i hi
      have h1 := hX.ge i hi
      have h2 := hX.le i hi
      rw [uniformKnot_first] at h1
      rw [uniformKnot_last hn] at h2
      rw [← hXe i hi]
      exact ⟨h1, h2⟩
    · intro σ' hσ' junk spline vals g1 g2 g3
      obtain ⟨c, c1, c2, c3, c4⟩ := hB σ' hσ' junk spline vals g1 g2 g3
      refine ⟨c, c1, c2, c3, fun j hj => ⟨fun i hi => ?_, fun _ => (c4 j hj).2⟩⟩
      rw [← hXe i hi]
      exact (c4 j hj).1 i hi
  | false =>
    have hf : Fits false .greville .greville := by simp [Fits]
    have hun : unknowns false 3 n .greville .greville = n + 3 := by
      have := unknowns_add (p := 3) (n := n) hf
      simpa [edgeEquations] using this
    have hk : (ubs 3 false a b n).grevilleIsUniform .greville .greville = false := by
      rw [← Bool.not_eq_true]
      exact fun h => by simpa [edgeEquations] using (C37_kind _ _).1 h
    have hD := ubs_grevilleDomain (p := 3) (n := n) (a := a) (b := b) hf
    obtain ⟨g, hgr⟩ : ∃ g, (ubs 3 false a b n).grevilleMixed .greville .greville = .ok g := by
      obtain ⟨u, _, g, e, _, _, hg, _⟩ := C37_uniform_greville_partial 3 (by norm_num) (by norm_num) a b
        hab n hn (by norm_num) (by omega) .greville .greville hf (.inl rfl)
      obtain rfl := Res.ok.inj (eu.symm.trans e)
      exact ⟨g, hg⟩
    have hg : GrevilleCoord (ubs 3 false a b n) .greville .greville g.coordinate := by
      rw [GrevilleCoord, if_neg (by simp [hk])]
      exact ⟨_, hgr, rfl⟩
    obtain ⟨B, X, τ, eB, hτ, hX, hB⟩ := C41_open_partial (p := 3) (by norm_num) hab hn (by omega) hf eu hD hg
      (fun _ => ⟨by norm_num, by norm_num⟩) (by simp [edgeRows]; omega) hL hσ
    have hXe : ∀ i, i < n + 3 → X i = gridPoint false a b n i := by
      intro i hi
      rw [mixed_points (by norm_num) hab hn (by omega) hf hk hg hX (by rw [hun]; exact hi), mixedPoint, gridPoint]
      simp only [hun, Bool.false_eq_true, if_false, true_and, ne_eq, not_true_eq_false, false_and, if_true]
      have hnh : (n : K) * ((b - a) / n) = b - a := mul_div_cancel₀ _ hn'.ne'
      rcases Nat.lt_or_ge n i with hi' | hi'
      · rw [if_pos (by omega), if_neg (by omega), if_neg (by omega)]
        obtain rfl | rfl : i = n + 1 ∨ i = n + 2 := by omega
        · rw [if_pos rfl, show n + 3 - 1 - (n + 1) = 1 by omega, edgePoint]
          push_cast
          linear_combination hnh
        · rw [if_neg (by omega), if_pos rfl, show n + 3 - 1 - (n + 2) = 0 by omega, edgePoint]
          push_cast
          linear_combination hnh
      · rw [if_neg (by omega)]
        by_cases hi2 : 2 ≤ i
        · rw [if_pos (by omega), if_neg (by omega), if_neg (by omega), if_neg (by omega), if_neg (by omega),
            show i - (3 / 2 + 1) + 1 = i - 1 by omega, if_neg (by omega), zero_add]
        · rw [if_neg (by omega), edgePoint]
          obtain rfl | rfl : i = 0 ∨ i = 1 := by omega
          · rw [if_pos rfl]; simp
          · rw [if_neg (by omega), if_pos rfl]
            push_cast
            ring
    rw [hτ (by norm_num)] at hB
    rw [hun] at hB hD hX eB
    refine ⟨_, B, by simp only [sampling, sbc, Bool.false_eq_true, if_false, hk, hgr, Res.ok_bind], hD, ?_, ?_, eB, ?_⟩
    · intro i hi
      rw [← hXe i hi, ← hX.coord i hi, Nat.zero_add]
    · intro i hi
      have h1 := hX.ge i hi
      have h2 := hX.le i hi
      rw [uniformKnot_first] at h1
      rw [uniformKnot_last hn] at h2
      rw [← hXe i hi]
      exact ⟨h1, h2⟩
    · intro σ' hσ' junk spline vals g1 g2 g3
      obtain ⟨c, c1, c2, c3, c4⟩ := hB σ' hσ' junk spline vals none none g1 g2 g3 (by simp [GivenDerivs]) (by simp [GivenDerivs])
      refine ⟨c, c1, c2, c3, fun j hj => ⟨fun i hi => ?_, by simp⟩⟩
      have := (c4 j hj).value i hi
      rw [← hXe i hi]
      refine this.trans (mul_le_mul_of_nonneg_right (by norm_num) (Finset.sum_nonneg fun _ _ => abs_nonneg _))

/-- The values of the evaluator. -/
theorem advection_eval (periodic : Bool) (hab : a < b) (hn : 0 < n) (hnb : n + 10 < 2 ^ 31) {C : Mat K} {j m : Nat}
    (hr : C.rows = n + 3) (hc : C.cols = m) (hj : j < m) (hper : periodic = true → ∀ i, i < 3 → C.val (n + i) j = C.val i j)
    (δ : K) :
    ∃ f : Nat → K, (∀ i, i < gridCount periodic n → eval1 ⟨.uniform (ubs 3 periodic a b n), rule periodic, rule periodic⟩
        (gridPoint periodic a b n i - δ) (column C j) = .ok (f i)) ∧
      (periodic = true → ∀ i, i < gridCount periodic n → ∀ (k : Int) (y : K), a ≤ y → y ≤ b →
        gridPoint periodic a b n i - δ = y + k * (b - a) → f i = splineValue (uniformKnot a b n 3) 3 n (fun J => C.val J j) y) ∧
      (periodic = false → ∀ i, i < gridCount periodic n → a ≤ gridPoint periodic a b n i - δ →
        gridPoint periodic a b n i - δ ≤ b →
        f i = splineValue (uniformKnot a b n 3) 3 n (fun J => C.val J j) (gridPoint periodic a b n i - δ)) ∧
      (periodic = false → ∀ i, i < gridCount periodic n →
        gridPoint periodic a b n i - δ < a ∨ b < gridPoint periodic a b n i - δ → f i = 0) := by
  obtain ⟨u', eu', h⟩ := BSpl.is_uniform (p := 3) (by norm_num) periodic hab hn (by omega)
  obtain rfl := ubs_of_mk (by norm_num) hab hn (by omega) eu'
  have hsm := h.small
  have e1 : uniformKnot a b n 3 3 = a := uniformKnot_first
  have e2 : uniformKnot a b n 3 (3 + n) = b := uniformKnot_last hn
  have hcol : ∀ J, J < n + 3 → column C j [BitVec.ofNat 64 J] = .ok (C.val J j) := by
    intro J hJ
    have : (BitVec.ofNat 64 J).toNat = J := by rw [BitVec.toNat_ofNat]; omega
    rw [column, this, Mat.rd, if_pos (by rw [hr, hc]; exact ⟨hJ, hj⟩)]
  cases periodic with
  | true =>
    have h' : BSpl.Is (K := K) (Side.bs ⟨.uniform (ubs 3 true a b n), rule true, rule true⟩) true 3 n (uniformKnot a b n 3) := h
    have key : ∀ x, ∃ v, eval1 ⟨.uniform (ubs 3 true a b n), rule true, rule true⟩ x (column C j) = .ok v := by
      intro x
      obtain ⟨y, -, e⟩ := C44_periodic_1d h' x hcol
      exact ⟨_, e⟩
    choose f hf using key
    refine ⟨fun i => f (gridPoint true a b n i - δ), fun i _ => hf _, fun _ i _ k y y1 y2 hy => ?_, by simp, by simp⟩
    refine Res.ok.inj ((hf _).symm.trans (C42_value h' (hper rfl) hcol k ⟨?_, ?_⟩ ?_))
    · rw [e1]; exact y1
    · rw [e2]; exact y2
    · rw [e1, e2]; exact hy
  | false =>
    have h' : BSpl.Is (K := K) (Side.bs ⟨.uniform (ubs 3 false a b n), rule false, rule false⟩) false 3 n (uniformKnot a b n 3) := h
    refine ⟨fun i => if a ≤ gridPoint false a b n i - δ ∧ gridPoint false a b n i - δ ≤ b then
      splineValue (uniformKnot a b n 3) 3 n (fun J => C.val J j) (gridPoint false a b n i - δ) else 0, ?_, by simp, ?_, ?_⟩
    · intro i _
      dsimp only
      split_ifs with hin
      · exact C44_inside_1d h' (by rw [e1]; exact hin.1) (by rw [e2]; exact hin.2) hcol
      · obtain ⟨o1, o2⟩ := C44_outside_1d h' (gridPoint false a b n i - δ) (column C j)
        rw [e1] at o1
        rw [e2] at o2
        rw [not_and_or, not_le, not_le] at hin
        rcases hin with hin | hin
        · rw [o1 hin]; rfl
        · rw [o2 hin]; rfl
    · intro _ i _ g1 g2
      exact if_pos ⟨g1, g2⟩
    · intro _ i _ g
      refine if_neg ?_
      rw [not_and_or, not_le, not_le]
      exact g

/-- `main` ends, whatever the order of the iterations of its kernels, and each step advects each line. -/
theorem C80_advects {L : Lapack K} (hL : L.Exact) {periodic : Bool} {p : Params K} {n m M : Nat}
    (h : AdvectionSetting periodic p n m M) (density : K → K → K) (junk : Nat → Nat → Nat → K) (order : List (List I64))
    (ho : order.Perm (Support.policy [BitVec.ofNat 64 (gridCount periodic n), BitVec.ofNat 64 m])) (setup : Sched)
    (hs : setup.Valid) (rounds : Nat → Round K)
    (hr : ∀ k, (rounds k).order.Perm (Support.policy [BitVec.ofNat 64 (gridCount periodic n), BitVec.ofNat 64 m]))
    (hb : ∀ k, (rounds k).build.Valid) (he : ∀ k, (rounds k).eval.Valid) :
    ∃ d : Nat → Nat → Nat → K, ∃ r, Advection.main L periodic p density junk order setup rounds = .ok r ∧
      r.rows = gridCount periodic n ∧ r.cols = m ∧
      (∀ i j, i < gridCount periodic n → j < m → d 0 i j =
        density (gridPoint periodic p.xStart p.xEnd n i) (p.yStart + j * ((p.yEnd - p.yStart) / (m - 1 : Nat)))) ∧
      (∀ k, k < M → ∀ j, j < m → ∃ c, Advected periodic p.xStart p.xEnd n (p.vx * advectionStep p M) (1 / (2 * 10 ^ 12))
        (fun i => d k i j) (fun i => d (k + 1) i j) c) ∧
      ∀ i j, i < gridCount periodic n → j < m → r.val i j = d M i j := by
  have hn2 := h.n2
  have hnb := h.nb
  have hm2 := h.m2
  have hmb := h.mb
  obtain ⟨hceil, hM⟩ := h.ceil
  have hxy : Dim.x ≠ Dim.y := by decide
  have hN : gridCount periodic n ≤ n + 3 := by rw [gridCount]; split <;> omega
  have eu : UBS.mk' 3 periodic p.xStart p.xEnd (BitVec.ofNat 64 n) = .ok (ubs 3 periodic p.xStart p.xEnd n) :=
    UBS.mk'_ok (by norm_num) periodic h.xs (by omega) (by omega)
  obtain ⟨coord, B, s1, s2, s3, s4, s5, s6⟩ := advection_ready periodic h.xs hn2 h.np hnb hL hs
  have i2 := Spectral.init_nat Dim.y p.yStart p.yEnd h.ys m (by omega) hmb
  have i3 := Spectral.init_nat Dim.t p.startTime p.endTime h.ts (M + 1) (by omega) h.tb
  have hmn : (BitVec.ofNat 64 m).toNat = m := toNat_small hmb
  have hgn : (BitVec.ofNat 64 (gridCount periodic n)).toNat = gridCount periodic n := toNat_small (by omega)
  have hn3 : (BitVec.ofNat 64 (n + 3)).toNat = n + 3 := toNat_small (by omega)
  have z1 : Dom.size (seg () 0 (gridCount periodic n)) = .ok (BitVec.ofNat 64 (gridCount periodic n)) := by
    simpa using seg_size (x := 0) (y := gridCount periodic n) (by omega)
  have z2 : Dom.size (seg Dim.y 0 m) = .ok (BitVec.ofNat 64 m) := by
    rw [Dom.size, seg]
    simp [Dom.sizeAux, Dom.extent, Dom.beg, Dom.fin, Tup.select, Tup.ofTuples, Tup.take, Elem.sub, Tup.zipVals,
      TypeSeq.same, TypeSeq.contains]
  have z3 : Dom.size (seg () 0 (n + 3)) = .ok (BitVec.ofNat 64 (n + 3)) := by
    simpa using seg_size (x := 0) (y := n + 3) (by omega)
  obtain ⟨f, f1, f2, f3, f4⟩ := initial_ok (K := K) (N := gridCount periodic n) (M := m) (by omega) hmb s3
    (uy := ⟨p.yStart, (p.yEnd - p.yStart) / ((m - 1 : Nat) : K), el Dim.y 0⟩)
    (ys := fun j => p.yStart + j * ((p.yEnd - p.yStart) / (m - 1 : Nat)))
    (fun j hj => coordinate_ok Dim.y _ _ (lt_trans hj hmb)) density ho ⟨gridCount periodic n, m, junk 0⟩ rfl rfl
  obtain ⟨d, r, r1, r2, r3, r4, r5, r6⟩ := timeLoop_ok (K := K) (dt := advectionStep p M) (vx := p.vx) (by omega) hmb s3 s6
    (s := ⟨.uniform (ubs 3 periodic p.xStart p.xEnd n), rule periodic, rule periodic⟩)
    (P := fun last next => ∃ c, Advected periodic p.xStart p.xEnd n (p.vx * advectionStep p M) (1 / (2 * 10 ^ 12)) last next c)
    (by
      intro last c j hc1 hc2 hj hQ
      obtain ⟨g, g1, g2, g3, g4⟩ := advection_eval periodic h.xs (by omega) hnb hc1 hc2 hj hQ.2 (p.vx * advectionStep p M)
      refine ⟨g, g1, fun g' hg' => ⟨fun J => c.val J j, hQ.1, hQ.2, ?_, ?_, ?_⟩⟩
      · intro hp i hi k y y1 y2 hy
        rw [hg' i hi]; exact g2 hp i hi k y y1 y2 hy
      · intro hp i hi y1 y2
        rw [hg' i hi]; exact g3 hp i hi y1 y2
      · intro hp i hi y1
        rw [hg' i hi]; exact g4 hp i hi y1) hr hb he M 0 f ⟨gridCount periodic n, m, junk 1⟩ ⟨n + 3, m, junk 2⟩
    ⟨gridCount periodic n, m, junk 3⟩ ⟨f2, f3⟩ ⟨rfl, rfl⟩ ⟨rfl, rfl⟩ ⟨rfl, rfl⟩
  obtain ⟨t1, t2⟩ := Spectral.time_nat Dim.t M h.tb
  have hadd : Vect.addInt [(Dim.t, BitVec.ofNat 64 M)] 1 = .ok [(Dim.t, BitVec.ofNat 64 (M + 1))] := by
    have : (1 : I64) = BitVec.ofNat 64 1 := rfl
    rw [Vect.addInt, this, One.sAdd_nat h.tb]; rfl
  have hMn : (BitVec.ofNat 64 M).toNat = M := toNat_small (by have := h.tb; omega)
  refine ⟨d, r, ?_, r2, r3, ?_, r6, fun i j _ _ => by rw [r5]⟩
  · rw [Advection.main, h.enx, h.eny, eu, Res.ok_bind]
    simp only [s1, s2, Res.ok_bind, i2, Heat.ceilCast_ok hceil (show M < 2 ^ 63 by have := h.tb; omega), hadd, i3, name_seg,
      Spectral.ofDomains_two hxy, z1, z2, hmn, hgn, f1, s5, ubs_full, z3, hn3, t1, t2, hMn, Nat.add_sub_cancel]
    exact r1
  · intro i j hi hj
    rw [r4, f4 i j hi hj]

/-- If the number of steps, or of the points in time, does not fit in a `std::ptrdiff_t`, `main` is undefined. -/
theorem C80_too_many_steps {L : Lapack K} (hL : L.Exact) {periodic : Bool} {p : Params K} {n m M : Nat} (xs : p.xStart < p.xEnd)
    (ys : p.yStart < p.yEnd) (enx : p.nx = BitVec.ofNat 64 n) (eny : p.ny = BitVec.ofNat 64 m) (n2 : 2 ≤ n)
    (np : periodic = true → 3 < n ∧ n ≤ 35000) (nb : n + 10 < 2 ^ 31) (m2 : 2 ≤ m) (mb : m < 2 ^ 63)
    (count : ⌈(p.endTime - p.startTime) / p.maxDt⌉ = (M : Int)) (hM : 2 ^ 63 ≤ M + 1) (density : K → K → K)
    (junk : Nat → Nat → Nat → K) (order : List (List I64)) (setup : Sched) (hs : setup.Valid) (rounds : Nat → Round K) :
    Advection.main L periodic p density junk order setup rounds = .ub := by
  have eu : UBS.mk' 3 periodic p.xStart p.xEnd (BitVec.ofNat 64 n) = .ok (ubs 3 periodic p.xStart p.xEnd n) :=
    UBS.mk'_ok (by norm_num) periodic xs (by omega) (by omega)
  obtain ⟨coord, B, s1, s2, -⟩ := advection_ready periodic xs n2 np nb hL hs
  have i2 := Spectral.init_nat Dim.y p.yStart p.yEnd ys m (by omega) mb
  rw [Advection.main, enx, eny, eu, Res.ok_bind]
  simp only [s1, s2, Res.ok_bind, i2]
  rcases Nat.lt_or_ge M (2 ^ 63) with hlt | hge
  · obtain rfl : M = 2 ^ 63 - 1 := by omega
    rw [Heat.ceilCast_ok count hlt, Res.ok_bind]
    have : Vect.addInt [(Dim.t, BitVec.ofNat 64 (2 ^ 63 - 1))] 1 = .ub := by decide +kernel
    rw [this]; rfl
  · have : Heat.ceilCast ((p.endTime - p.startTime) / p.maxDt) = .ub := by
      have h1 : ⌊(M : K) + 1 / 5⌋ = (M : Int) := by
        rw [Int.floor_eq_iff]
        constructor
        · simp
        · push_cast; norm_num
      have h0 : (0 : K) ≤ (M : K) + 1 / 5 := by positivity
      rw [Heat.ceilCast, count]
      simp only [Int.cast_natCast, h0, if_true, h1]
      rw [if_neg (by omega)]
    rw [this]; rfl

/-- The same below zero, where the conversion to `std::ptrdiff_t` adds one to the number. -/
theorem C80_too_negative {L : Lapack K} (hL : L.Exact) {periodic : Bool} {p : Params K} {n m : Nat} {z : Int} (xs : p.xStart < p.xEnd)
    (ys : p.yStart < p.yEnd) (enx : p.nx = BitVec.ofNat 64 n) (eny : p.ny = BitVec.ofNat 64 m) (n2 : 2 ≤ n)
    (np : periodic = true → 3 < n ∧ n ≤ 35000) (nb : n + 10 < 2 ^ 31) (m2 : 2 ≤ m) (mb : m < 2 ^ 63)
    (count : ⌈(p.endTime - p.startTime) / p.maxDt⌉ = z) (hz : z + 1 < -2 ^ 63) (density : K → K → K)
    (junk : Nat → Nat → Nat → K) (order : List (List I64)) (setup : Sched) (hs : setup.Valid) (rounds : Nat → Round K) :
    Advection.main L periodic p density junk order setup rounds = .ub := by
  have eu : UBS.mk' 3 periodic p.xStart p.xEnd (BitVec.ofNat 64 n) = .ok (ubs 3 periodic p.xStart p.xEnd n) :=
    UBS.mk'_ok (by norm_num) periodic xs (by omega) (by omega)
  obtain ⟨coord, B, s1, s2, -⟩ := advection_ready periodic xs n2 np nb hL hs
  have i2 := Spectral.init_nat Dim.y p.yStart p.yEnd ys m (by omega) mb
  rw [Advection.main, enx, eny, eu, Res.ok_bind]
  simp only [s1, s2, Res.ok_bind, i2]
  have hz' : (z : K) ≤ -1 := by exact_mod_cast (by omega : z ≤ -1)
  have h1 : ⌈(z : K) + 1 / 5⌉ = z + 1 := by
    rw [Int.ceil_eq_iff]
    constructor
    · push_cast; linarith
    · push_cast; linarith
  have h0 : ¬(0 : K) ≤ (z : K) + 1 / 5 := by linarith
  have : Heat.ceilCast ((p.endTime - p.startTime) / p.maxDt) = .ub := by
    rw [Heat.ceilCast, count]
    simp only [h0, if_false, h1]
    rw [if_neg (by omega)]
  rw [this]; rfl

/-! ## What the steps add up to, in a periodic dimension -/

/-- The steps cover the time asked for, and none is longer than asked. -/
theorem C80_time {periodic : Bool} {p : Params K} {n m M : Nat} (h : AdvectionSetting periodic p n m M) :
    M * advectionStep p M = p.endTime - p.startTime ∧ 0 < advectionStep p M ∧ advectionStep p M ≤ p.maxDt := by
  have hM : (0 : K) < M := by exact_mod_cast h.ceil.2
  refine ⟨mul_div_cancel₀ _ hM.ne', div_pos (sub_pos.2 h.ts) hM, ?_⟩
  rw [advectionStep, div_le_iff₀ hM, mul_comm]
  exact h.cover

section step

variable {δ : K} {last next c : Nat → K}

/-- A periodic step in terms of the fraction of a cell and of the whole cells of the displacement. -/
theorem advected_values (hab : a < b) (hn : 3 < n) (h : Advected true a b n δ (1 / (2 * 10 ^ 12)) last next c) :
    ∃ (q : Int) (β : K), 0 ≤ β ∧ β < 1 ∧ δ = -((q : K) + β) * ((b - a) / n) ∧
      (∀ i : Nat, i < n → next i = CubicShift.val n c β ((i : Int) + q)) ∧
      ∀ i : Nat, i < n → |CubicShift.val n c 0 i - last i| ≤ 1 / (2 * 10 ^ 12) * ∑ J ∈ Finset.range (n + 3), |c J| := by
  obtain ⟨q, β, h0, h1, hδ, hq⟩ := CubicShift.locate hab (by omega : 0 < n) δ
  refine ⟨q, β, h0, h1, hδ, fun i hi => ?_, fun i hi => ?_⟩
  · obtain ⟨m, k, hm, hz, e, y1, y2⟩ := hq i
    rw [h.shifted rfl i hi k _ y1 y2 (by rw [gridPoint, if_pos rfl]; exact e),
      CubicShift.value_eq hab hn (h.period rfl) hm h0 h1.le, hz,
      CubicShift.periodic_int (fun z => CubicShift.val_periodic n c β z)]
  · have := h.close i hi
    rw [gridPoint, if_pos rfl, ← add_zero ((i : Nat) : K), CubicShift.value_eq hab hn (h.period rfl) hi le_rfl zero_le_one] at this
    exact this

/-- The error of the interpolation against the bound of the values. -/
theorem advected_error (hn : 3 < n) (hnb : n ≤ 35000) (hc : ∀ i, i < 3 → c (n + i) = c i) {V : K}
    (hV : ∀ i, i < n → |last i| ≤ V)
    (he : ∀ i : Nat, i < n → |CubicShift.val n c 0 i - last i| ≤ 1 / (2 * 10 ^ 12) * ∑ J ∈ Finset.range (n + 3), |c J|) :
    ∀ i : Nat, i < n → |CubicShift.val n c 0 i - last i| ≤ 4 * n * V / 10 ^ 12 := by
  obtain ⟨S, hS⟩ : ∃ S, S = ∑ J ∈ Finset.range (n + 3), |c J| := ⟨_, rfl⟩
  rw [← hS] at he
  have hS0 : 0 ≤ S := by rw [hS]; exact Finset.sum_nonneg fun _ _ => abs_nonneg _
  have hext := CubicShift.ext_le (c := c) (n := n) (V := V + 1 / (2 * 10 ^ 12) * S) (by omega) (fun i hi => by
    have h1 := he i hi
    have h2 := hV i hi
    calc |CubicShift.val n c 0 i| = |last i + (CubicShift.val n c 0 i - last i)| := by congr 1; ring
      _ ≤ _ := (abs_add_le _ _).trans (add_le_add h2 h1))
  have hsum : S ≤ (n + 3) * (3 * (V + 1 / (2 * 10 ^ 12) * S)) := by
    calc S = ∑ J ∈ Finset.range (n + 3), |CubicShift.ext n c J| := by
          rw [hS]
          exact Finset.sum_congr rfl fun J hJ => by rw [CubicShift.ext_nat hn hc (Finset.mem_range.1 hJ)]
      _ ≤ ∑ _J ∈ Finset.range (n + 3), 3 * (V + 1 / (2 * 10 ^ 12) * S) := Finset.sum_le_sum fun J _ => hext J
      _ = _ := by rw [Finset.sum_const, Finset.card_range, nsmul_eq_mul]; push_cast; ring
  have hn' : (n : K) ≤ 35000 := by exact_mod_cast hnb
  have hn3 : (3 : K) ≤ n := by exact_mod_cast hn.le
  have hV0 : 0 ≤ V := (abs_nonneg _).trans (hV 0 (by omega))
  have h1 : (n : K) * S ≤ 35000 * S := mul_le_mul_of_nonneg_right hn' hS0
  have h2 : 3 * V ≤ (n : K) * V := mul_le_mul_of_nonneg_right hn3 hV0
  have hS8 : S ≤ 8 * n * V := by
    ring_nf at hsum ⊢
    linarith
  intro i hi
  refine (he i hi).trans ?_
  linarith

/-- A step keeps the sum of the values. -/
theorem advected_mass (hab : a < b) (hn : 3 < n) (hnb : n ≤ 35000) (h : Advected true a b n δ (1 / (2 * 10 ^ 12)) last next c)
    {V : K} (hV : ∀ i, i < n → |last i| ≤ V) :
    |∑ i ∈ Finset.range n, next i - ∑ i ∈ Finset.range n, last i| ≤ 4 * n ^ 2 * V / 10 ^ 12 := by
  obtain ⟨q, β, h0, h1, -, h2, h3⟩ := advected_values hab hn h
  have h4 := advected_error hn hnb (h.period rfl) hV h3
  rw [Finset.sum_congr rfl fun i hi => h2 i (Finset.mem_range.1 hi), CubicShift.sum_val n c β q, ← CubicShift.sum_val n c 0 0,
    ← Finset.sum_sub_distrib]
  refine (Finset.abs_sum_le_sum_abs _ _).trans ((Finset.sum_le_sum (g := fun _ => 4 * n * V / 10 ^ 12) fun i hi => ?_).trans ?_)
  · rw [add_zero]
    exact h4 i (Finset.mem_range.1 hi)
  · rw [Finset.sum_const, Finset.card_range, nsmul_eq_mul]
    exact le_of_eq (by ring)

/-- A step does not make the sum of the squares larger. -/
theorem advected_energy (hab : a < b) (hn : 3 < n) (hnb : n ≤ 35000) (h : Advected true a b n δ (1 / (2 * 10 ^ 12)) last next c) :
    ∑ i ∈ Finset.range n, next i ^ 2 ≤ (1 + 2 * n ^ 2 / 10 ^ 11) * ∑ i ∈ Finset.range n, last i ^ 2 := by
  obtain ⟨q, β, h0, h1, -, h2, h3⟩ := advected_values hab hn h
  obtain ⟨M, hM, hmax⟩ := Finset.exists_max_image (Finset.range n) (fun i => |last i|) ⟨0, Finset.mem_range.2 (by omega)⟩
  have h4 := advected_error hn hnb (h.period rfl) (V := |last M|) (fun i hi => hmax i (Finset.mem_range.2 hi)) h3
  obtain ⟨E, hE⟩ : ∃ E, E = ∑ i ∈ Finset.range n, last i ^ 2 := ⟨_, rfl⟩
  have hVE : |last M| ^ 2 ≤ E := by
    rw [hE, sq_abs]
    exact Finset.single_le_sum (f := fun i => last i ^ 2) (fun i _ => sq_nonneg _) hM
  have hE0 : 0 ≤ E := (sq_nonneg _).trans hVE
  have hn' : (n : K) ≤ 35000 := by exact_mod_cast hnb
  have hn3 : (3 : K) ≤ n := by exact_mod_cast hn.le
  obtain ⟨η, hη⟩ : ∃ η : K, η = 4 * n / 10 ^ 12 := ⟨_, rfl⟩
  have hη0 : 0 < η := by rw [hη]; positivity
  have hη1 : η ≤ 1 := by rw [hη, div_le_one (by positivity)]; linarith
  have hsq : ∀ i : Nat, i < n → CubicShift.val n c 0 i ^ 2 ≤ (1 + η) * last i ^ 2 + (η + η ^ 2) * E := by
    intro i hi
    have h5 := h4 i hi
    obtain ⟨e, he⟩ : ∃ e, e = CubicShift.val n c 0 i - last i := ⟨_, rfl⟩
    rw [← he, show 4 * n * |last M| / 10 ^ 12 = η * |last M| by rw [hη]; ring] at h5
    have h6 : e ^ 2 ≤ η ^ 2 * E := by
      calc e ^ 2 = |e| ^ 2 := (sq_abs e).symm
        _ ≤ (η * |last M|) ^ 2 := pow_le_pow_left₀ (abs_nonneg _) h5 2
        _ = η ^ 2 * |last M| ^ 2 := by ring
        _ ≤ _ := mul_le_mul_of_nonneg_left hVE (sq_nonneg _)
    have h7 : 2 * last i * e ≤ η * last i ^ 2 + η * E := by
      have h8 : 0 ≤ (η * last i - e) ^ 2 := sq_nonneg _
      have h9 : η * (2 * last i * e) ≤ η * (η * last i ^ 2 + η * E) := by nlinarith
      exact le_of_mul_le_mul_left h9 hη0
    rw [show CubicShift.val n c 0 i = last i + e by rw [he]; ring]
    nlinarith
  have hid := CubicShift.sum_squares n c β q
  rw [Finset.sum_congr rfl fun i hi => by rw [h2 i (Finset.mem_range.1 hi)]]
  have hd2 : 0 ≤ β ^ 2 * (1 - β) ^ 2 / 12 * ∑ i ∈ Finset.range n, (CubicShift.ext n c i - 2 * CubicShift.ext n c ((i : Int) + 1) +
      CubicShift.ext n c ((i : Int) + 2)) ^ 2 := mul_nonneg (by positivity) (Finset.sum_nonneg fun _ _ => sq_nonneg _)
  have h1' : 0 ≤ 1 - β := by linarith
  have hd3 : 0 ≤ β ^ 3 * (1 - β) ^ 3 / 36 * ∑ i ∈ Finset.range n, (CubicShift.ext n c i - 3 * CubicShift.ext n c ((i : Int) + 1) +
      3 * CubicShift.ext n c ((i : Int) + 2) - CubicShift.ext n c ((i : Int) + 3)) ^ 2 :=
    mul_nonneg (by positivity) (Finset.sum_nonneg fun _ _ => sq_nonneg _)
  have hle : ∑ i ∈ Finset.range n, CubicShift.val n c 0 i ^ 2 ≤ (1 + η) * E + n * ((η + η ^ 2) * E) := by
    refine (Finset.sum_le_sum fun i hi => hsq i (Finset.mem_range.1 hi)).trans (le_of_eq ?_)
    rw [Finset.sum_add_distrib, ← Finset.mul_sum, ← hE, Finset.sum_const, Finset.card_range, nsmul_eq_mul]
  rw [← hE]
  have hf : (1 + η) * E + n * ((η + η ^ 2) * E) ≤ (1 + 2 * n ^ 2 / 10 ^ 11) * E := by
    rw [show (1 + η) * E + n * ((η + η ^ 2) * E) = (1 + (η + n * η + n * η * η)) * E by ring]
    refine mul_le_mul_of_nonneg_right (add_le_add_right ?_ 1) hE0
    have g1 : (n : K) * η * η ≤ n * η * 1 := mul_le_mul_of_nonneg_left hη1 (by positivity)
    have g2 : 1 * η ≤ (n : K) * η := mul_le_mul_of_nonneg_right (by linarith) hη0.le
    have g3 : (n : K) * η * 3 ≤ 2 * n ^ 2 / 10 ^ 11 := by
      rw [hη, show (n : K) * (4 * n / 10 ^ 12) * 3 = 12 / 10 ^ 12 * n ^ 2 by ring,
        show 2 * (n : K) ^ 2 / 10 ^ 11 = 20 / 10 ^ 12 * n ^ 2 by ring]
      exact mul_le_mul_of_nonneg_right (by norm_num) (sq_nonneg _)
    linarith
  linarith

/-- A step by whole cells moves the values. -/
theorem advected_shift (hab : a < b) (hn : 3 < n) (hnb : n ≤ 35000) (h : Advected true a b n δ (1 / (2 * 10 ^ 12)) last next c)
    {V : K} (hV : ∀ i, i < n → |last i| ≤ V) {s : Int} (hs : δ = s * ((b - a) / n)) {i k : Nat} (hi : i < n) (hk : k < n)
    (hik : ∃ l : Int, (i : Int) - s = k + l * n) : |next i - last k| ≤ 4 * n * V / 10 ^ 12 := by
  obtain ⟨q, β, h0, h1, hδ, h2, h3⟩ := advected_values hab hn h
  have h4 := advected_error hn hnb (h.period rfl) hV h3
  have hn' : (0 : K) < n := by exact_mod_cast (by omega : 0 < n)
  have hh : 0 < (b - a) / (n : K) := div_pos (sub_pos.2 hab) hn'
  have e : (s : K) = -((q : K) + β) := mul_right_cancel₀ hh.ne' (hs.symm.trans hδ)
  have e' : β = ((-s - q : Int) : K) := by push_cast; linear_combination e
  have hz : (-s - q : Int) = 0 := by
    rw [e'] at h0 h1
    have g1 : (0 : Int) ≤ -s - q := by exact_mod_cast h0
    have g2 : (-s - q : Int) < 1 := by exact_mod_cast h1
    omega
  rw [hz, Int.cast_zero] at e'
  obtain ⟨l, hl⟩ := hik
  rw [h2 i hi, e', show (i : Int) + q = k + l * n by rw [← hl]; omega,
    CubicShift.periodic_int (fun z => CubicShift.val_periodic n c 0 z)]
  exact h4 k hk

end step

/-- The start of the run. -/
def startDensity (p : Params K) (density : K → K → K) (n m : Nat) (i j : Nat) : K :=
  density (p.xStart + i * ((p.xEnd - p.xStart) / n)) (p.yStart + j * ((p.yEnd - p.yStart) / (m - 1 : Nat)))

section run

variable {L : Lapack K} {p : Params K} {m M : Nat}

/-- What a run of the periodic program is asked. -/
structure PeriodicRun (L : Lapack K) (p : Params K) (n m M : Nat) (density : K → K → K) (r : Mat K) : Prop where
  exact : L.Exact
  setting : AdvectionSetting true p n m M
  run : ∃ (junk : Nat → Nat → Nat → K) (order : List (List I64)) (setup : Sched) (rounds : Nat → Round K),
    order.Perm (Support.policy [BitVec.ofNat 64 n, BitVec.ofNat 64 m]) ∧ setup.Valid ∧
    (∀ k, (rounds k).order.Perm (Support.policy [BitVec.ofNat 64 n, BitVec.ofNat 64 m])) ∧
    (∀ k, (rounds k).build.Valid) ∧ (∀ k, (rounds k).eval.Valid) ∧
    Advection.main L true p density junk order setup rounds = .ok r

theorem PeriodicRun.steps {density : K → K → K} {r : Mat K} (h : PeriodicRun L p n m M density r) {j : Nat} (hj : j < m) :
    ∃ d : Nat → Nat → K, (∀ i, i < n → d 0 i = startDensity p density n m i j) ∧ (∀ i, i < n → r.val i j = d M i) ∧
      ∀ k, k < M → ∃ c, Advected true p.xStart p.xEnd n (p.vx * advectionStep p M) (1 / (2 * 10 ^ 12)) (d k) (d (k + 1)) c := by
  obtain ⟨junk, order, setup, rounds, h1, h2, h3, h4, h5, h6⟩ := h.run
  obtain ⟨d, r', e, -, -, d0, ds, dM⟩ := C80_advects h.exact h.setting density junk order h1 setup h2 rounds h3 h4 h5
  obtain rfl := Res.ok.inj (h6.symm.trans e)
  exact ⟨fun k i => d k i j, fun i hi => d0 i j hi hj, fun i hi => dM i j hi hj, fun k hk => ds k hk j hj⟩

theorem run_energy {d : Nat → Nat → K} (hab : a < b) (hn : 3 < n) (hnb : n ≤ 35000) {δ : K}
    (hd : ∀ k, k < M → ∃ c, Advected true a b n δ (1 / (2 * 10 ^ 12)) (d k) (d (k + 1)) c) (k : Nat) (hk : k ≤ M) :
    ∑ i ∈ Finset.range n, d k i ^ 2 ≤ (1 + 2 * n ^ 2 / 10 ^ 11) ^ k * ∑ i ∈ Finset.range n, d 0 i ^ 2 := by
  induction k with
  | zero => simp
  | succ k ih =>
    obtain ⟨c, hc⟩ := hd k (by omega)
    refine (advected_energy hab hn hnb hc).trans ?_
    rw [pow_succ' _ k, mul_assoc]
    exact mul_le_mul_of_nonneg_left (ih (by omega)) (by positivity)

/-- The sum of the squares of the values along each line does not grow, but for the tolerance of the interpolation. -/
theorem C80_energy {density : K → K → K} {r : Mat K} (h : PeriodicRun L p n m M density r) {j : Nat} (hj : j < m) :
    ∑ i ∈ Finset.range n, r.val i j ^ 2 ≤
      (1 + 2 * n ^ 2 / 10 ^ 11) ^ M * ∑ i ∈ Finset.range n, startDensity p density n m i j ^ 2 := by
  obtain ⟨d, d0, dM, hd⟩ := h.steps hj
  obtain ⟨h3, h4⟩ := h.setting.np rfl
  have := run_energy h.setting.xs h3 h4 hd M le_rfl
  rw [Finset.sum_congr rfl fun i hi => by rw [dM i (Finset.mem_range.1 hi)]]
  refine this.trans (le_of_eq ?_)
  rw [Finset.sum_congr rfl fun i hi => by rw [d0 i (Finset.mem_range.1 hi)]]

/-- All the values stay below twice the root of the sum of the squares at the start. -/
theorem run_bound {d : Nat → Nat → K} (hab : a < b) (hn : 3 < n) (hnb : n ≤ 35000) {δ : K}
    (hd : ∀ k, k < M → ∃ c, Advected true a b n δ (1 / (2 * 10 ^ 12)) (d k) (d (k + 1)) c) {W : K} (hW0 : 0 ≤ W)
    (hW : ∑ i ∈ Finset.range n, d 0 i ^ 2 ≤ W ^ 2) (hM : 4 * M * n ^ 2 ≤ 10 ^ 11) (k : Nat) (hk : k ≤ M) (i : Nat) (hi : i < n) :
    |d k i| ≤ 2 * W := by
  obtain ⟨q, hq⟩ : ∃ q : K, q = 2 * n ^ 2 / 10 ^ 11 := ⟨_, rfl⟩
  have hq0 : 0 ≤ q := by rw [hq]; positivity
  have hMq : 2 * M * q ≤ 1 := by
    rw [hq, ← mul_div_assoc, div_le_one (by positivity)]
    have : 4 * (M : K) * n ^ 2 ≤ 10 ^ 11 := by exact_mod_cast hM
    linarith
  have hpow : ∀ k : Nat, k ≤ M → (1 + q) ^ k ≤ 1 + 2 * k * q := by
    intro k
    induction k with
    | zero => intro _; simp
    | succ k ih =>
      intro hk
      have h1 := ih (by omega)
      have hkM : (k : K) ≤ M := by exact_mod_cast (by omega : k ≤ M)
      have h2 : 2 * (k : K) * q ≤ 1 := le_trans (by
        have := mul_le_mul_of_nonneg_right hkM hq0
        linarith) hMq
      rw [pow_succ]
      refine (mul_le_mul_of_nonneg_right h1 (by linarith)).trans ?_
      have h3 : 2 * (k : K) * q * q ≤ 1 * q := mul_le_mul_of_nonneg_right h2 hq0
      push_cast
      linarith
  have hE := run_energy hab hn hnb hd k hk
  rw [← hq] at hE
  have hkM : (k : K) ≤ M := by exact_mod_cast hk
  have h2 : (1 + q) ^ k ≤ 2 := (hpow k hk).trans (by
    have := mul_le_mul_of_nonneg_right hkM hq0
    linarith)
  have h3 : d k i ^ 2 ≤ 2 * W ^ 2 := by
    refine (Finset.single_le_sum (f := fun i => d k i ^ 2) (fun i _ => sq_nonneg _) (Finset.mem_range.2 hi)).trans (hE.trans ?_)
    exact mul_le_mul h2 hW (Finset.sum_nonneg fun _ _ => sq_nonneg _) (by norm_num)
  refine abs_le_of_sq_le_sq (h3.trans ?_) (by linarith)
  have := sq_nonneg W
  linarith

/-- The sum of the values along each line is kept. -/
theorem C80_mass {density : K → K → K} {r : Mat K} (h : PeriodicRun L p n m M density r) {j : Nat} (hj : j < m) {W : K} (hW0 : 0 ≤ W)
    (hW : ∑ i ∈ Finset.range n, startDensity p density n m i j ^ 2 ≤ W ^ 2) (hM : 4 * M * n ^ 2 ≤ 10 ^ 11) :
    |∑ i ∈ Finset.range n, r.val i j - ∑ i ∈ Finset.range n, startDensity p density n m i j| ≤ 8 * M * n ^ 2 * W / 10 ^ 12 := by
  obtain ⟨d, d0, dM, hd⟩ := h.steps hj
  obtain ⟨h3, h4⟩ := h.setting.np rfl
  have hb := run_bound h.setting.xs h3 h4 hd hW0 (by
    rw [Finset.sum_congr rfl fun i hi => by rw [d0 i (Finset.mem_range.1 hi)]]; exact hW) hM
  have key : ∀ k : Nat, k ≤ M → |∑ i ∈ Finset.range n, d k i - ∑ i ∈ Finset.range n, d 0 i| ≤ k * (8 * n ^ 2 * W / 10 ^ 12) := by
    intro k
    induction k with
    | zero => intro _; simp
    | succ k ih =>
      intro hk
      obtain ⟨c, hc⟩ := hd k (by omega)
      have h5 := advected_mass h.setting.xs h3 h4 hc (hb k (by omega))
      have h6 := ih (by omega)
      have h7 := abs_sub_le (∑ i ∈ Finset.range n, d (k + 1) i) (∑ i ∈ Finset.range n, d k i) (∑ i ∈ Finset.range n, d 0 i)
      push_cast
      rw [show 4 * (n : K) ^ 2 * (2 * W) / 10 ^ 12 = 8 * n ^ 2 * W / 10 ^ 12 by ring] at h5
      linarith
  have := key M le_rfl
  rw [Finset.sum_congr rfl fun i hi => dM i (Finset.mem_range.1 hi), Finset.sum_congr rfl fun i hi => (d0 i (Finset.mem_range.1 hi)).symm]
  refine this.trans (le_of_eq (by ring))

/-- If a step displaces by whole cells, the run carries the values along the characteristics. -/
theorem C80_shift {density : K → K → K} {r : Mat K} (h : PeriodicRun L p n m M density r) {j : Nat} (hj : j < m) {W : K} (hW0 : 0 ≤ W)
    (hW : ∑ i ∈ Finset.range n, startDensity p density n m i j ^ 2 ≤ W ^ 2) (hM : 4 * M * n ^ 2 ≤ 10 ^ 11) {s : Int}
    (hs : p.vx * advectionStep p M = s * ((p.xEnd - p.xStart) / n)) {i k : Nat} (hi : i < n) (hk : k < n)
    (hik : ∃ l : Int, (i : Int) - M * s = k + l * n) :
    |r.val i j - startDensity p density n m k j| ≤ 8 * M * n * W / 10 ^ 12 := by
  obtain ⟨d, d0, dM, hd⟩ := h.steps hj
  obtain ⟨h3, h4⟩ := h.setting.np rfl
  have hb := run_bound h.setting.xs h3 h4 hd hW0 (by
    rw [Finset.sum_congr rfl fun i hi => by rw [d0 i (Finset.mem_range.1 hi)]]; exact hW) hM
  have hpos : (0 : Int) < n := by omega
  have key : ∀ t : Nat, t ≤ M → ∀ i k, i < n → k < n → (∃ l : Int, (i : Int) - t * s = k + l * n) →
      |d t i - d 0 k| ≤ t * (8 * n * W / 10 ^ 12) := by
    intro t
    induction t with
    | zero =>
      rintro _ i k hi hk ⟨l, hl⟩
      have hl0 : l = 0 := by
        have g1 : l * n < 1 * n := by omega
        have g2 : -1 * (n : Int) < l * n := by omega
        have := lt_of_mul_lt_mul_right g1 hpos.le
        have := lt_of_mul_lt_mul_right g2 hpos.le
        omega
      have : i = k := by rw [hl0] at hl; omega
      subst this
      simp
    | succ t ih =>
      rintro ht i k hi hk ⟨l, hl⟩
      obtain ⟨c, hc⟩ := hd t (by omega)
      have m0 := Int.emod_nonneg ((i : Int) - s) hpos.ne'
      have m1 := Int.emod_lt_of_pos ((i : Int) - s) hpos
      obtain ⟨o, ho⟩ := Int.eq_ofNat_of_zero_le m0
      have hz : (i : Int) - s = o + ((i : Int) - s) / n * n := by rw [← ho]; exact (Int.emod_add_ediv_mul _ _).symm
      have h5 := advected_shift h.setting.xs h3 h4 hc (hb t (by omega)) hs hi (k := o) (by omega) ⟨_, hz⟩
      have h6 := ih (by omega) o k (by omega) hk ⟨l - ((i : Int) - s) / n, by
        push_cast at hl
        linear_combination hl - hz⟩
      have h7 := abs_sub_le (d (t + 1) i) (d t o) (d 0 k)
      rw [show 4 * (n : K) * (2 * W) / 10 ^ 12 = 8 * n * W / 10 ^ 12 by ring] at h5
      push_cast
      linarith
  have := key M le_rfl i k hi hk hik
  rw [dM i hi, ← d0 k hk]
  exact this.trans (le_of_eq (by ring))

end run

end program

/-! ## The parameters of the example -/

/-- The constants of `characteristics_advection.cpp` (107-130). -/
def exampleAdvection : Params Rat where
  xStart := -1
  xEnd := 1
  nx := 100
  vx := 1 / 5
  yStart := -1
  yEnd := 1
  ny := 100
  startTime := 0
  endTime := 10
  maxDt := 1 / 10

theorem exampleAdvection_setting (periodic : Bool) : AdvectionSetting periodic exampleAdvection 100 100 100 where
  xs := by norm_num [exampleAdvection]
  ys := by norm_num [exampleAdvection]
  ts := by norm_num [exampleAdvection]
  ds := by norm_num [exampleAdvection]
  enx := rfl
  eny := rfl
  n2 := by norm_num
  np := fun _ => by norm_num
  nb := by norm_num
  m2 := by norm_num
  mb := by norm_num
  cover := by norm_num [exampleAdvection]
  least := fun k hk => by
    have h1 : (10 : Rat) - 0 ≤ k * (1 / 10) := hk
    have : (100 : Rat) ≤ k := by linarith
    exact_mod_cast this
  tb := by norm_num

/-- The hypotheses of `C80_advects` hold of the parameters of the program, for the two kinds of dimension. -/
example {L : Lapack Rat} (hL : L.Exact) (periodic : Bool) (density : Rat → Rat → Rat) (σ : Sched) (hσ : σ.Valid) : ∃ r,
    Advection.main L periodic exampleAdvection density (fun _ _ _ => 0)
      (Support.policy [BitVec.ofNat 64 (gridCount periodic 100), BitVec.ofNat 64 100]) σ
      (fun _ => ⟨Support.policy [BitVec.ofNat 64 (gridCount periodic 100), BitVec.ofNat 64 100], σ, fun _ _ => 0, σ⟩) = .ok r := by
  obtain ⟨_, r, e, -⟩ := C80_advects hL (exampleAdvection_setting periodic) density (fun _ _ _ => 0) _ (List.Perm.refl _) σ hσ
    (fun _ => ⟨_, σ, fun _ _ => 0, σ⟩) (fun _ => List.Perm.refl _) (fun _ => hσ) (fun _ => hσ)
  exact ⟨r, e⟩

/-- With steps of `10^-18` there are more than a `std::ptrdiff_t` counts. -/
example {L : Lapack Rat} (hL : L.Exact) (periodic : Bool) (density : Rat → Rat → Rat) (σ : Sched) (hσ : σ.Valid) (order : List (List I64))
    (rounds : Nat → Round Rat) :
    Advection.main L periodic { exampleAdvection with maxDt := 1 / 10 ^ 18 } density (fun _ _ _ => 0) order σ rounds = .ub :=
  C80_too_many_steps hL (n := 100) (m := 100) (M := 10 ^ 19) (by norm_num [exampleAdvection]) (by norm_num [exampleAdvection]) rfl rfl
    (by norm_num) (fun _ => by norm_num) (by norm_num) (by norm_num) (by norm_num) (by decide +kernel) (by norm_num) density _ order σ hσ
    rounds

/-- The same for a step of `-10^-18`. -/
example {L : Lapack Rat} (hL : L.Exact) (periodic : Bool) (density : Rat → Rat → Rat) (σ : Sched) (hσ : σ.Valid) (order : List (List I64))
    (rounds : Nat → Round Rat) :
    Advection.main L periodic { exampleAdvection with maxDt := -1 / 10 ^ 18 } density (fun _ _ _ => 0) order σ rounds = .ub :=
  C80_too_negative hL (n := 100) (m := 100) (z := -10 ^ 19) (by norm_num [exampleAdvection]) (by norm_num [exampleAdvection]) rfl rfl
    (by norm_num) (fun _ => by norm_num) (by norm_num) (by norm_num) (by norm_num) (by decide +kernel) (by norm_num) density _ order σ hσ
    rounds

/-- In the program a step displaces by one cell, and the hundred steps bring the density back to where it was: the result is the
start, up to `10^-7`, if the sum of the squares of the density along the lines is at most `1`. -/
example {L : Lapack Rat} {density : Rat → Rat → Rat} {r : Mat Rat} (h : PeriodicRun L exampleAdvection 100 100 100 density r)
    (hW : ∀ j, j < 100 → ∑ i ∈ Finset.range 100, startDensity exampleAdvection density 100 100 i j ^ 2 ≤ 1 ^ 2) {i j : Nat}
    (hi : i < 100) (hj : j < 100) : |r.val i j - startDensity exampleAdvection density 100 100 i j| ≤ 1 / 10 ^ 7 := by
  have := C80_shift h hj (W := 1) (by norm_num) (hW j hj) (by norm_num) (s := 1)
    (by norm_num [exampleAdvection, advectionStep]) hi hi ⟨-1, by push_cast; ring⟩
  norm_num at this ⊢
  linarith

end DDC.Props
