import Verif.Lemmas.RoundedAdvection
import Verif.Props.C75b
import Verif.Props.C80

/-!
# C82 — the advection of the examples by characteristics, with rounding
-/

namespace DDC.Props

open Tup Spec Advection RoundedAdvection Rounded Builder Eval Grid2
open One (seg el vec)

set_option linter.unusedSectionVars false

variable {fl : Rat → Rat} {L : Lapack Rat} {ρ : Nat → (Nat → Nat → Rat) → Rat}

/-- Specification: a step of the semi-Lagrangian scheme along a periodic line, up to errors.  There is a periodic cubic spline
(its coefficients are `c`) that takes the values `last` at the points up to `ε` times the largest one, and the values `next` are
its values at the points displaced by `-δ`, up to `η` times the largest of `last`.  The coefficients are at most four times the
largest of `last`. -/
structure AdvectedNear (a b : Rat) (n : Nat) (δ ε η : Rat) (last next c : Nat → Rat) : Prop where
  period : ∀ i, i < 3 → c (n + i) = c i
  coefs : ∀ V, (∀ i, i < n → |last i| ≤ V) → ∀ J, J < n + 3 → |c J| ≤ 4 * V
  close : ∀ V, (∀ i, i < n → |last i| ≤ V) → ∀ i, i < n →
    |splineValue (uniformKnot a b n 3) 3 n c (a + i * ((b - a) / n)) - last i| ≤ ε * V
  shifted : ∀ V, (∀ i, i < n → |last i| ≤ V) → ∀ i, i < n → ∀ (k : Int) (y : Rat), a ≤ y → y ≤ b →
    a + i * ((b - a) / n) - δ = y + k * (b - a) → |next i - splineValue (uniformKnot a b n 3) 3 n c y| ≤ η * V

/-- The time step as computed. -/
def roundedStep (fl : Rat → Rat) (p : Params Rat) (M : Nat) : Rat := fl (fl (p.endTime - p.startTime) / M)

/-- What is asked of the parameters: the ends are in order, the number of cells is between 4 and 35000, the domain is at most
eight times as far from zero as it is wide, there are at least two points along `DDimY`, `M` is the number of time steps as
computed and a step displaces by at most eight periods. -/
structure RoundedSetting (fl : Rat → Rat) (p : Params Rat) (n m M : Nat) : Prop where
  xs : p.xStart < p.xEnd
  ys : p.yStart < p.yEnd
  ts : p.startTime < p.endTime
  ds : 0 < p.maxDt
  enx : p.nx = BitVec.ofNat 64 n
  eny : p.ny = BitVec.ofNat 64 m
  n3 : 3 < n
  nb : n ≤ 35000
  far : |p.xStart| ≤ 8 * (p.xEnd - p.xStart)
  m2 : 2 ≤ m
  mb : m < 2 ^ 63
  count : ⌈fl (fl (p.endTime - p.startTime) / p.maxDt)⌉ = (M : Int)
  tb : M < 2 ^ 50
  dist : |p.vx * roundedStep fl p M| ≤ 8 * (p.xEnd - p.xStart)

/-- What is asked of the builder: its constructor succeeds, and its error is `κ`, at most one twelfth.  `ρ` bounds the residuals
of LAPACK, `D` the entries of the small block of the matrix that is stored in three blocks (C74). -/
structure RoundedBuilder (fl : Rat → Rat) (L : Lapack Rat) (ρ : Nat → (Nat → Nat → Rat) → Rat) (p : Params Rat) (n : Nat) (κ : Rat)
    (setup : Sched) (B : Rounded.Builder) : Prop where
  valid : setup.Valid
  made : Rounded.Builder.mk' fl L setup (.uniform (mkKnots fl p.xStart p.xEnd n 3) true) (seg () 0 n)
    (uniformPoints fl (mkKnots fl p.xStart p.xEnd n 3)) = .ok B
  error : ∃ D ε : Rat, 0 ≤ D ∧ B.solver.ColsBound D ∧ ε = 48 / 2 ^ 53 + 6 * positionError p.xStart p.xEnd n 3 ∧
    κ = n * B.solver.residual ρ (1 + ε + 1 / 2 ^ 51) D + 4 * ε + n * (1 / 2 ^ 51)
  small : κ ≤ 1 / 12

/-- No foot is so close to the upper end of the domain that the cell after the last one is computed for it (C61). -/
def FeetInside (fl : Rat → Rat) (p : Params Rat) (n : Nat) (dt : Rat) : Prop :=
  ∀ i, i < n → (mkKnots fl p.xStart p.xEnd n 3).eval fl true (fun _ _ => .ok 0) (fun _ _ => .ok 0)
    (footOf fl p.vx dt ((mkKnots fl p.xStart p.xEnd n 3).grevillePoint fl i)) (coefsOf (n + 3) fun _ => 0) ≠ .ub

/-! ## Parts of the set-up -/

theorem fl_pos (hfl : RoundsAll fl) {q : Rat} (hq : 0 < q) : 0 < fl q := by
  have h := abs_le.1 (hfl.error q)
  rw [abs_of_pos hq] at h
  have : q / 2 ^ 53 < q := div_lt_self hq (by norm_num)
  linarith [h.1]

theorem rounded_init {τ : Type} [DecidableEq τ] (hfl : RoundsAll fl) (t : τ) {a b : Rat} (hab : a < b) {n : Nat} (hn : 1 < n)
    (hn' : n < 2 ^ 63) :
    uniformInit fl t a b [(t, BitVec.ofNat 64 n)] = .ok (⟨a, fl (fl (b - a) / fl ((n - 1 : Nat) : Rat)), el t 0⟩, seg t 0 n) := by
  obtain ⟨s, hs⟩ : ∃ s, s = fl (fl (b - a) / fl ((n - 1 : Nat) : Rat)) := ⟨_, rfl⟩
  have hs0 : 0 < s := by
    rw [hs]
    exact fl_pos hfl (div_pos (fl_pos hfl (sub_pos.2 hab)) (fl_pos hfl (by exact_mod_cast (by omega : 0 < n - 1))))
  have h1 : decide (1 < ((n : Nat) : Int)) = true := by simpa using hn
  have h0 : (Elem.createReference t : Elem τ) = el t 0 := rfl
  simp only [uniformInit, samplingStep, hab, decide_true, Res.guardAbort_true, Vect.value, One.toInt_ofNat hn', h1, Res.ok_bind]
  rw [One.subInt_nat t hn' (by omega), Res.ok_bind]
  simp only [Vect.value, Res.ok_bind, One.toInt_ofNat (show n - 1 < 2 ^ 63 by omega), Int.cast_natCast, ← hs]
  simp only [Uniform.mk', hs0, decide_true, Res.guardAbort_true, Res.ok_bind, h0, Res.pure_eq]
  rw [← vec, One.ofSize_nat]
  simp

theorem rounded_coordinate {τ : Type} [DecidableEq τ] (t : τ) (o s : Rat) {i : Nat} (hi : i < 2 ^ 63) :
    uniformCoordinate fl (⟨o, s, el t 0⟩ : Uniform τ Rat) (el t i) = .ok (fl (o + fl (fl (i : Rat) * s))) := by
  simp only [uniformCoordinate]
  rw [One.sub_nat t (Nat.zero_le i)]
  simp only [Res.ok_bind, vec, Vect.value, Nat.sub_zero, One.toInt_ofNat hi]
  simp

theorem rounded_ceilCast (hfl : RoundsAll fl) {x : Rat} {M : Nat} (h : ⌈x⌉ = (M : Int)) (hM : M < 2 ^ 50) :
    RoundedAdvection.ceilCast fl x = .ok (BitVec.ofNat 64 M) := by
  have e : ((⌈x⌉ : Int) : Rat) = (M : Rat) := by rw [h, Int.cast_natCast]
  have hM' : (M : Rat) ≤ 2 ^ 50 := by exact_mod_cast hM.le
  have hM0 : (0 : Rat) ≤ M := Nat.cast_nonneg M
  have h5 := abs_le.1 (hfl.error (1 / 5))
  rw [abs_of_pos (by norm_num)] at h5
  obtain ⟨y, hy⟩ : ∃ y, y = fl ((M : Rat) + fl (1 / 5)) := ⟨_, rfl⟩
  have h6 := abs_le.1 (hfl.error ((M : Rat) + fl (1 / 5)))
  rw [abs_of_nonneg (by linarith [h5.1]), ← hy] at h6
  have y0 : (M : Rat) ≤ y := by
    rw [hy]
    have := hfl.mono (M : Rat) ((M : Rat) + fl (1 / 5)) (by linarith [h5.1])
    have e2 := hfl.exact (M : Int) (by rw [abs_of_nonneg (by omega)]; omega)
    rw [Int.cast_natCast] at e2
    rwa [e2] at this
  have y1 : y < M + 1 := by linarith [h6.2, h5.2]
  have h1 : ⌊y⌋ = (M : Int) := by
    rw [Int.floor_eq_iff]
    exact ⟨by exact_mod_cast y0, by exact_mod_cast y1⟩
  rw [RoundedAdvection.ceilCast, e, ← hy]
  simp only [hM0.trans y0, if_true, h1]
  rw [if_pos ⟨by omega, by omega⟩]
  simp

theorem RoundedSetting.steps_pos (hfl : RoundsAll fl) {p : Params Rat} {n m M : Nat} (h : RoundedSetting fl p n m M) : 0 < M := by
  have h1 := fl_pos hfl (div_pos (fl_pos hfl (sub_pos.2 h.ts)) h.ds)
  have := Int.ceil_pos.2 h1
  rw [h.count] at this
  omega

theorem RoundedSetting.moderate {p : Params Rat} {n m M : Nat} (h : RoundedSetting fl p n m M) :
    |p.xStart| * n ≤ 2 ^ 32 * (p.xEnd - p.xStart) := by
  have h1 : (n : Rat) ≤ 35000 := by exact_mod_cast h.nb
  have h2 := mul_le_mul h.far h1 (Nat.cast_nonneg n) (by linarith [h.xs] : (0 : Rat) ≤ 8 * (p.xEnd - p.xStart))
  linarith [h.xs]

/-- The step, as `init` computes it, divides by the number of steps itself. -/
theorem rounded_dt (hfl : RoundsAll fl) {p : Params Rat} {n m M : Nat} (h : RoundedSetting fl p n m M) :
    fl (fl (p.endTime - p.startTime) / fl ((M + 1 - 1 : Nat) : Rat)) = roundedStep fl p M := by
  have e2 := hfl.exact (M : Int) (by have := h.tb; rw [abs_of_nonneg (by omega)]; omega)
  rw [Int.cast_natCast] at e2
  rw [Nat.add_sub_cancel, e2, roundedStep]

/-! ## The steps -/

/-- The builder. -/
theorem rounded_builds (hfl : RoundsNearest fl) (hL : L.Backward ρ) {p : Params Rat} {n m M : Nat} (h : RoundedSetting fl p n m M)
    {κ : Rat} {setup : Sched} {B : Rounded.Builder} (hB : RoundedBuilder fl L ρ p n κ setup B) :
    RoundedAdvection.Builds fl L B (n + 3) n fun v c => (∀ i, i < 3 → c (n + i) = c i) ∧
      (∀ V, (∀ i, i < n → |v i| ≤ V) → ∀ J, J < n + 3 → |c J| ≤ 4 * V) ∧
      ∀ V, (∀ i, i < n → |v i| ≤ V) → ∀ i, i < n →
        |splineValue (uniformKnot p.xStart p.xEnd n 3) 3 n c (p.xStart + i * ((p.xEnd - p.xStart) / n)) - v i| ≤ 4 * κ * V := by
  intro σ hσ junk spline vals g1 g2 g3
  obtain ⟨D, ε, hD, hcb, hε, hκ⟩ := hB.error
  obtain ⟨c, e, c1, c2, c3⟩ := C75_cubic_partial hfl hL h.xs h.n3 h.nb h.moderate rfl hB.valid hB.made D hD hcb σ hσ junk spline vals
    none none g1 g2 g3 (fun _ _ h => by cases h) (fun _ _ h => by cases h)
  obtain ⟨c', e', c4⟩ := C75_cubic_stable_partial hfl hL h.xs h.n3 h.nb h.moderate rfl hB.valid hB.made hD hcb hε hκ hB.small rfl hσ junk
    spline vals g1 g2 g3
  obtain rfl := Res.ok.inj (e.symm.trans e')
  refine ⟨c, e, c1, c2, fun j hj => ⟨?_, fun V hV => (c4 j hj V hV _ rfl).1, fun V hV i hi => ((c4 j hj V hV _ rfl).2 i hi).1⟩⟩
  have hb : ∀ J, J < n + 3 → |c.val J j| ≤ ∑ J ∈ Finset.range (n + 3), |c.val J j| := fun J hJ =>
    Finset.single_le_sum (f := fun J => |c.val J j|) (fun _ _ => abs_nonneg _) (Finset.mem_range.2 hJ)
  intro i hi
  rw [Nat.add_comm]
  exact (c3 j hj _ _ rfl hb).1 i hi

/-- The evaluation at the feet. -/
theorem rounded_feet (hfl : RoundsNearest fl) {p : Params Rat} {n m M : Nat} (h : RoundedSetting fl p n m M)
    (hsafe : FeetInside fl p n (roundedStep fl p M)) {c : Nat → Rat} (hc : ∀ i, i < 3 → c (n + i) = c i) :
    ∃ f : Nat → Rat, (∀ i, i < n → (mkKnots fl p.xStart p.xEnd n 3).eval fl true (fun _ _ => .ok 0) (fun _ _ => .ok 0)
        (footOf fl p.vx (roundedStep fl p M) ((mkKnots fl p.xStart p.xEnd n 3).grevillePoint fl i)) (coefsOf (n + 3) c) = .ok (f i)) ∧
      ∀ C, (∀ J, J < n + 3 → |c J| ≤ C) → ∀ i, i < n → ∀ (k : Int) (y : Rat), p.xStart ≤ y → y ≤ p.xEnd →
        p.xStart + i * ((p.xEnd - p.xStart) / n) - p.vx * roundedStep fl p M = y + k * (p.xEnd - p.xStart) →
        |f i - splineValue (uniformKnot p.xStart p.xEnd n 3) 3 n c y| ≤ n / 2 ^ 37 * C := by
  obtain ⟨q, β, h0, h1, hδ, hq⟩ := CubicShift.locate h.xs (by have := h.n3; omega : 0 < n) (p.vx * roundedStep fl p M)
  have key : ∀ i, ∃ y, i < n → (mkKnots fl p.xStart p.xEnd n 3).eval fl true (fun _ _ => .ok 0) (fun _ _ => .ok 0)
        (footOf fl p.vx (roundedStep fl p M) ((mkKnots fl p.xStart p.xEnd n 3).grevillePoint fl i)) (coefsOf (n + 3) c) = .ok y ∧
      ∀ C, (∀ J, J < n + 3 → |c J| ≤ C) → |y - CubicShift.val n c β ((i : Int) + q)| ≤ n / 2 ^ 37 * C := by
    intro i
    by_cases hi : i < n
    · have hb : ∀ J, J < n + 3 → |c J| ≤ ∑ J ∈ Finset.range (n + 3), |c J| := fun J hJ =>
        Finset.single_le_sum (f := fun J => |c J|) (fun _ _ => abs_nonneg _) (Finset.mem_range.2 hJ)
      have hv := fun (C : Rat) (hC : ∀ J, J < n + 3 → |c J| ≤ C) => foot_value hfl h.xs h.n3 h.nb h.far rfl h.dist hi
        (fun _ _ => .ok 0) (fun _ _ => .ok 0) hc hC h0 h1 hδ
      have hns : (mkKnots fl p.xStart p.xEnd n 3).eval fl true (fun _ _ => .ok 0) (fun _ _ => .ok 0)
        (footOf fl p.vx (roundedStep fl p M) ((mkKnots fl p.xStart p.xEnd n 3).grevillePoint fl i)) (coefsOf (n + 3) c) ≠ .ub :=
        fun hu => hsafe i hi (eval_ub _ _ _ _ _ _ _ _ hu)
      rcases hv _ hb with ⟨y, ey, -⟩ | ⟨hu, -⟩
      · refine ⟨y, fun _ => ⟨ey, fun C hC => ?_⟩⟩
        rcases hv C hC with ⟨y', ey', hy'⟩ | ⟨hu, -⟩
        · obtain rfl := Res.ok.inj (ey.symm.trans ey')
          exact hy'
        · exact absurd hu hns
      · exact absurd hu hns
    · exact ⟨0, fun h => absurd h hi⟩
  choose f hf using key
  refine ⟨f, fun i hi => (hf i hi).1, fun C hC i hi k y y1 y2 hy => ?_⟩
  have hv := (hf i hi).2 C hC
  suffices e : splineValue (uniformKnot p.xStart p.xEnd n 3) 3 n c y = CubicShift.val n c β ((i : Int) + q) by rw [e]; exact hv
  have hn0 : (0 : Rat) < n := by have := h.n3; exact_mod_cast (by omega : 0 < n)
  have hd : 0 < p.xEnd - p.xStart := sub_pos.2 h.xs
  have hh : 0 < (p.xEnd - p.xStart) / (n : Rat) := div_pos hd hn0
  obtain ⟨H, hH⟩ : ∃ H, H = (p.xEnd - p.xStart) / (n : Rat) := ⟨_, rfl⟩
  have hnH : (n : Rat) * H = p.xEnd - p.xStart := by rw [hH]; exact mul_div_cancel₀ _ hn0.ne'
  rw [← hH] at hh hδ hy
  -- the cell of `y`
  have hpos : y - p.xStart = ((i : Rat) + q + β - k * n) * H := by
    linear_combination -hy - hδ + k * hnH
  have z0 : 0 ≤ ((i : Rat) + q + β - k * n) := by
    by_contra hlt
    push Not at hlt
    have := mul_neg_of_neg_of_pos hlt hh
    linarith
  have z1 : ((i : Rat) + q + β - k * n) ≤ n := by
    by_contra hlt
    push Not at hlt
    have := mul_lt_mul_of_pos_right hlt hh
    linarith
  have zz0 : (0 : Int) ≤ (i : Int) + q - k * n := by
    have : (-1 : Rat) < ((i : Int) + q - k * n : Int) := by push_cast; linarith
    have : (-1 : Int) < (i : Int) + q - k * n := by exact_mod_cast this
    omega
  have zz1 : (i : Int) + q - k * n ≤ n := by
    have : (((i : Int) + q - k * n : Int) : Rat) ≤ (n : Int) := by push_cast; linarith
    exact_mod_cast this
  obtain ⟨z, hz⟩ := Int.eq_ofNat_of_zero_le zz0
  have hz' : (i : Rat) + q - k * n = z := by exact_mod_cast hz
  have hval : CubicShift.val n c β ((i : Int) + q) = CubicShift.val n c β (z : Int) := by
    rw [show (i : Int) + q = z + k * n by omega, CubicShift.periodic_int (fun z => CubicShift.val_periodic n c β z)]
  have hy' : y = p.xStart + (z + β) * ((p.xEnd - p.xStart) / n) := by
    rw [← hH, ← hz']
    linear_combination hpos
  rw [hval]
  rcases Nat.lt_or_ge z n with hzn | hzn
  · rw [hy', CubicShift.value_eq h.xs h.n3 hc hzn h0 h1.le]
  · have hzn' : z = n := by omega
    have hβ : β = 0 := by
      have : (z : Rat) = n := by exact_mod_cast hzn'
      linarith
    rw [hy', uniform_splineValue h.xs (by norm_num) (by have := h.n3; omega), hβ, hzn', ← raw, add_zero, raw_end h.n3 hc]
    have e2 := raw_val h.n3 hc (m := 0) (by have := h.n3; omega) (β := 0) le_rfl zero_le_one
    rw [Nat.cast_zero, add_zero] at e2
    rw [e2, ← CubicShift.val_periodic]
    simp

/-- `main` up to the time loop. -/
theorem rounded_main (hfl : RoundsNearest fl) {p : Params Rat} {n m M : Nat} (h : RoundedSetting fl p n m M) {κ : Rat} {setup : Sched}
    {B : Rounded.Builder} (hB : RoundedBuilder fl L ρ p n κ setup B) (density : Rat → Rat → Rat) (junk : Nat → Nat → Nat → Rat)
    (order : List (List I64)) (ho : order.Perm (Support.policy [BitVec.ofNat 64 n, BitVec.ofNat 64 m])) (rounds : Nat → Round Rat)
    {k : Knots} (hk : k = mkKnots fl p.xStart p.xEnd n 3) :
    ∃ f : Mat Rat, f.rows = n ∧ f.cols = m ∧ (∀ i j, i < n → j < m → f.val i j = density (k.grevillePoint fl i)
        (fl (p.yStart + fl (fl (j : Rat) * fl (fl (p.yEnd - p.yStart) / fl ((m - 1 : Nat) : Rat)))))) ∧
      RoundedAdvection.main fl L p density junk order setup rounds =
        RoundedAdvection.timeLoop fl L B k (coordX fl k) p.vx (roundedStep fl p M) (seg2 .x .y 0 n 0 m) rounds M 0 f ⟨n, m, junk 1⟩
          ⟨n + 3, m, junk 2⟩ ⟨n, m, junk 3⟩ := by
  have hn3 := h.n3
  have hnb := h.nb
  have hm2 := h.m2
  have hmb := h.mb
  have htb := h.tb
  have hM := h.steps_pos hfl.toRoundsAll
  have hxy : Dim.x ≠ Dim.y := by decide
  have eu : UBS.mk' 3 true p.xStart p.xEnd (BitVec.ofNat 64 n) = .ok (ubs 3 true p.xStart p.xEnd n) :=
    UBS.mk'_ok (by norm_num) true h.xs (by omega) (by omega)
  have hf : Fits true .periodic .periodic := by rw [Fits, if_pos rfl]; exact ⟨rfl, rfl⟩
  have hun : unknowns true 3 n .periodic .periodic = n := by
    have := unknowns_add (p := 3) (n := n) hf
    simpa [edgeEquations] using this
  have s2 := ubs_grevilleDomain (p := 3) (n := n) (a := p.xStart) (b := p.xEnd) hf
  rw [hun] at s2
  have s3 : ∀ i, i < n → coordX fl k (el () i) = .ok (k.grevillePoint fl i) := fun i hi => coordX_ok k (by omega)
  have s5 : Rounded.Builder.mk' fl L setup (.uniform k true) (seg () 0 n) (coordX fl k) = .ok B := by rw [hk]; exact hB.made
  have i2 := rounded_init hfl.toRoundsAll Dim.y h.ys (n := m) (by omega) hmb
  have i3 := rounded_init hfl.toRoundsAll Dim.t h.ts (n := M + 1) (by omega) (by omega)
  rw [rounded_dt hfl.toRoundsAll h] at i3
  have hmn : (BitVec.ofNat 64 m).toNat = m := toNat_small hmb
  have hgn : (BitVec.ofNat 64 n).toNat = n := toNat_small (by omega)
  have hn3' : (BitVec.ofNat 64 (n + 3)).toNat = n + 3 := toNat_small (by omega)
  have z1 : Dom.size (seg () 0 n) = .ok (BitVec.ofNat 64 n) := by
    simpa using seg_size (x := 0) (y := n) (by omega)
  have z2 : Dom.size (seg Dim.y 0 m) = .ok (BitVec.ofNat 64 m) := by
    rw [Dom.size, seg]
    simp [Dom.sizeAux, Dom.extent, Dom.beg, Dom.fin, Tup.select, Tup.ofTuples, Tup.take, Elem.sub, Tup.zipVals,
      TypeSeq.same, TypeSeq.contains]
  have z3 : Dom.size (seg () 0 (n + 3)) = .ok (BitVec.ofNat 64 (n + 3)) := by
    simpa using seg_size (x := 0) (y := n + 3) (by omega)
  obtain ⟨f, f1, f2, f3, f4⟩ := RoundedAdvection.initial_ok (fl := fl) (N := n) (M := m) (by omega) hmb s3
    (uy := ⟨p.yStart, fl (fl (p.yEnd - p.yStart) / fl ((m - 1 : Nat) : Rat)), el Dim.y 0⟩)
    (ys := fun j => fl (p.yStart + fl (fl (j : Rat) * fl (fl (p.yEnd - p.yStart) / fl ((m - 1 : Nat) : Rat)))))
    (fun j hj => rounded_coordinate Dim.y _ _ (lt_trans hj hmb)) density ho ⟨n, m, junk 0⟩ rfl rfl
  obtain ⟨t1, t2⟩ := Spectral.time_nat Dim.t M (by omega)
  have hadd : Vect.addInt [(Dim.t, BitVec.ofNat 64 M)] 1 = .ok [(Dim.t, BitVec.ofNat 64 (M + 1))] := by
    have : (1 : I64) = BitVec.ofNat 64 1 := rfl
    rw [Vect.addInt, this, One.sAdd_nat (by omega)]; rfl
  have hMn : (BitVec.ofNat 64 M).toNat = M := toNat_small (by omega)
  refine ⟨f, f2, f3, f4, ?_⟩
  rw [RoundedAdvection.main, h.enx, h.eny, eu, Res.ok_bind]
  simp only [hgn, ← hk, s2, Res.ok_bind, i2, rounded_ceilCast hfl.toRoundsAll h.count htb, hadd, i3, name_seg,
      Spectral.ofDomains_two hxy, z1, z2, hmn, f1, s5, ubs_full, z3, hn3', t1, t2, hMn]

/-- `main` ends, whatever the order of the iterations of its kernels, and each step advects each line up to the errors of the
interpolation and of the evaluation.  Missing: that no foot comes too close to the upper end of the domain is a hypothesis, which
`C82_inside` reduces to the displacement not being close to whole cells and `C82_past_the_end` shows to be needed. -/
theorem C82_advects_partial (hfl : RoundsNearest fl) (hL : L.Backward ρ) {p : Params Rat} {n m M : Nat} (h : RoundedSetting fl p n m M)
    {κ : Rat} {setup : Sched} {B : Rounded.Builder} (hB : RoundedBuilder fl L ρ p n κ setup B)
    (hsafe : FeetInside fl p n (roundedStep fl p M)) (density : Rat → Rat → Rat) (junk : Nat → Nat → Nat → Rat)
    (order : List (List I64)) (ho : order.Perm (Support.policy [BitVec.ofNat 64 n, BitVec.ofNat 64 m])) (rounds : Nat → Round Rat)
    (hr : ∀ k, (rounds k).order.Perm (Support.policy [BitVec.ofNat 64 n, BitVec.ofNat 64 m])) (hb : ∀ k, (rounds k).build.Valid)
    (he : ∀ k, (rounds k).eval.Valid) :
    ∃ d : Nat → Nat → Nat → Rat, ∃ r, RoundedAdvection.main fl L p density junk order setup rounds = .ok r ∧
      r.rows = n ∧ r.cols = m ∧
      (∀ i j, i < n → j < m → d 0 i j = density ((mkKnots fl p.xStart p.xEnd n 3).grevillePoint fl i)
        (fl (p.yStart + fl (fl (j : Rat) * fl (fl (p.yEnd - p.yStart) / fl ((m - 1 : Nat) : Rat)))))) ∧
      (∀ k, k < M → ∀ j, j < m → ∃ c, AdvectedNear p.xStart p.xEnd n (p.vx * roundedStep fl p M) (4 * κ) (n / 2 ^ 35)
        (fun i => d k i j) (fun i => d (k + 1) i j) c) ∧
      ∀ i j, i < n → j < m → r.val i j = d M i j := by
  have hn3 := h.n3
  have hnb := h.nb
  obtain ⟨k, hk⟩ : ∃ k, k = mkKnots fl p.xStart p.xEnd n 3 := ⟨_, rfl⟩
  have s3 : ∀ i, i < n → coordX fl k (el () i) = .ok (k.grevillePoint fl i) := fun i hi => coordX_ok k (by omega)
  obtain ⟨f, f2, f3, f4, em⟩ := rounded_main hfl h hB density junk order ho rounds hk
  obtain ⟨d, r, r1, r2, r3, r4, r5, r6⟩ := RoundedAdvection.timeLoop_ok (fl := fl) (k := k) (vx := p.vx) (dt := roundedStep fl p M)
    (by omega) h.mb s3 (rounded_builds hfl hL h hB)
    (P := fun last next => ∃ c, AdvectedNear p.xStart p.xEnd n (p.vx * roundedStep fl p M) (4 * κ) (n / 2 ^ 35) last next c)
    (by
      intro last c hQ
      obtain ⟨g, g1, g2⟩ := rounded_feet hfl h hsafe hQ.1
      refine ⟨g, by rw [hk]; exact g1, fun g' hg' => ⟨c, hQ.1, hQ.2.1, hQ.2.2, fun V hV i hi l y y1 y2 hy => ?_⟩⟩
      rw [hg' i hi]
      exact (g2 (4 * V) (hQ.2.1 V hV) i hi l y y1 y2 hy).trans (le_of_eq (by ring))) hr hb he M 0 f ⟨n, m, junk 1⟩
    ⟨n + 3, m, junk 2⟩ ⟨n, m, junk 3⟩ ⟨f2, f3⟩ ⟨rfl, rfl⟩ ⟨rfl, rfl⟩ ⟨rfl, rfl⟩
  rw [em]
  refine ⟨d, r, r1, r2, r3, fun i j hi hj => ?_, r6, fun i j _ _ => by rw [r5]⟩
  rw [r4, f4 i j hi hj, hk]

/-- A loop one of whose iterations is undefined while the others end or are undefined. -/
theorem forLoop_ub {σ : Type} {f : Nat → σ → Res σ} {P : σ → Prop} (n lo : Nat) (s : σ) (hs : P s)
    (h : ∀ i s, lo ≤ i → i < lo + n → P s → f i s = .ub ∨ ∃ s', f i s = .ok s' ∧ P s')
    (hu : ∃ i, lo ≤ i ∧ i < lo + n ∧ ∀ s, P s → f i s = .ub) : forLoop f lo n s = .ub := by
  induction n generalizing lo s with
  | zero => obtain ⟨i, h1, h2, -⟩ := hu; omega
  | succ n ih =>
    rw [forLoop]
    rcases h lo s le_rfl (by omega) hs with e | ⟨s', e, hs'⟩
    · rw [e]; rfl
    · rw [e, Res.ok_bind]
      refine ih (lo + 1) s' hs' (fun i s h1 h2 => h i s (by omega) (by omega)) ?_
      obtain ⟨i, h1, h2, h3⟩ := hu
      refine ⟨i, ?_, by omega, h3⟩
      rcases Nat.eq_or_lt_of_le h1 with rfl | h4
      · rw [h3 s hs] at e; cases e
      · exact h4

theorem foldlM_ub {σ α : Type} {f : σ → α → Res σ} {P : σ → Prop} (l : List α) (s : σ) (hs : P s)
    (hu : ∀ a, a ∈ l → ∀ s, P s → f s a = .ub) (hl : l ≠ []) : l.foldlM f s = .ub := by
  cases l with
  | nil => exact absurd rfl hl
  | cons a l => rw [List.foldlM_cons, hu a (by simp) s hs]; rfl

/-- Otherwise `main` reads a coefficient that does not exist. -/
theorem C82_reads_outside (hfl : RoundsNearest fl) (hL : L.Backward ρ) {p : Params Rat} {n m M : Nat} (h : RoundedSetting fl p n m M)
    {κ : Rat} {setup : Sched} {B : Rounded.Builder} (hB : RoundedBuilder fl L ρ p n κ setup B)
    (hsafe : ¬FeetInside fl p n (roundedStep fl p M)) (density : Rat → Rat → Rat) (junk : Nat → Nat → Nat → Rat)
    (order : List (List I64)) (ho : order.Perm (Support.policy [BitVec.ofNat 64 n, BitVec.ofNat 64 m])) (rounds : Nat → Round Rat)
    (hr : ∀ k, (rounds k).order.Perm (Support.policy [BitVec.ofNat 64 n, BitVec.ofNat 64 m])) (hb : ∀ k, (rounds k).build.Valid)
    (he : ∀ k, (rounds k).eval.Valid) :
    RoundedAdvection.main fl L p density junk order setup rounds = .ub := by
  have hn3 := h.n3
  have hnb := h.nb
  obtain ⟨k, hk⟩ : ∃ k, k = mkKnots fl p.xStart p.xEnd n 3 := ⟨_, rfl⟩
  have s3 : ∀ i, i < n → coordX fl k (el () i) = .ok (k.grevillePoint fl i) := fun i hi => coordX_ok k (by omega)
  obtain ⟨f, f2, f3, f4, em⟩ := rounded_main hfl h hB density junk order ho rounds hk
  obtain ⟨M', rfl⟩ : ∃ M', M = M' + 1 := ⟨M - 1, by have := h.steps_pos hfl.toRoundsAll; omega⟩
  obtain ⟨dt, hdt⟩ : ∃ dt, dt = roundedStep fl p (M' + 1) := ⟨_, rfl⟩
  obtain ⟨feet, g1, g2, g3, g4⟩ := RoundedAdvection.feet_ok (fl := fl) (by omega) h.mb s3 p.vx dt (hr 0)
    ⟨n, m, junk 3⟩ rfl rfl
  obtain ⟨c, c1, c2, c3, c4⟩ := rounded_builds hfl hL h hB _ (hb 0) (rounds 0).junk ⟨n + 3, m, junk 2⟩ f rfl f2 f3
  have c3' : c.cols = m := c3
  rw [em, RoundedAdvection.timeLoop, ← hdt, g1, Res.ok_bind, c1, Res.ok_bind]
  suffices e : RoundedAdvection.evalMesh fl k (rounds 0).eval feet c ⟨n, m, junk 1⟩ = .ub by rw [e]; rfl
  obtain ⟨i0, hi0, hu0⟩ : ∃ i, i < n ∧ k.eval fl true (fun _ _ => .ok 0) (fun _ _ => .ok 0)
      (footOf fl p.vx dt (k.grevillePoint fl i)) (coefsOf (n + 3) fun _ => 0) = .ub := by
    by_contra hno
    refine hsafe fun i hi hu => hno ⟨i, hi, ?_⟩
    rw [hk, hdt]
    exact hu
  obtain ⟨q, β, h0, h1, hδ, -⟩ := CubicShift.locate h.xs (by omega : 0 < n) (p.vx * dt)
  have hdist : |p.vx * dt| ≤ 8 * (p.xEnd - p.xStart) := by rw [hdt]; exact h.dist
  rw [RoundedAdvection.evalMesh, Builder.colLoop]
  refine foldlM_ub (P := fun b : Mat Rat => b.rows = n ∧ b.cols = m) _ _ ⟨rfl, rfl⟩ (fun j hj b hbm => ?_) ?_
  · have hjm : j < m := (he 0).mem.1 hj
    have hcol : ∀ i, k.eval fl true (fun _ _ => .ok 0) (fun _ _ => .ok 0) (footOf fl p.vx dt (k.grevillePoint fl i)) (Eval.column c j) =
        k.eval fl true (fun _ _ => .ok 0) (fun _ _ => .ok 0) (footOf fl p.vx dt (k.grevillePoint fl i))
          (coefsOf (n + 3) fun J => c.val J j) := fun i => eval_column _ _ _ _ _ c2 (by rw [c3']; exact hjm)
    have hrd : ∀ i, i < n → feet.rd i j = .ok (footOf fl p.vx dt (k.grevillePoint fl i)) := fun i hi => by
      rw [Mat.rd, if_pos (by rw [g2, g3]; exact ⟨hi, hjm⟩), g4 i j hi hjm]
    refine forLoop_ub (P := fun b : Mat Rat => b.rows = n ∧ b.cols = m) _ _ _ hbm (fun i b' _ hi hb' => ?_)
      ⟨i0, Nat.zero_le _, by simpa using hi0, fun b' hb' => ?_⟩
    · have hi' : i < n := by simpa using hi
      rw [hrd i hi', Res.ok_bind, hcol i]
      have hb2 : ∀ J, J < n + 3 → |c.val J j| ≤ ∑ J ∈ Finset.range (n + 3), |c.val J j| := fun J hJ =>
        Finset.single_le_sum (f := fun J => |c.val J j|) (fun _ _ => abs_nonneg _) (Finset.mem_range.2 hJ)
      rcases foot_value hfl h.xs h.n3 h.nb h.far hk hdist hi' (fun _ _ => .ok 0) (fun _ _ => .ok 0)
        (c4 j hjm).1 hb2 h0 h1 hδ with ⟨y, ey, -⟩ | ⟨hu, -⟩
      · right
        rw [ey, Res.ok_bind, Mat.wr, if_pos (by rw [hb'.1, hb'.2]; exact ⟨hi', hjm⟩)]
        exact ⟨_, rfl, hb'⟩
      · left
        rw [hu]; rfl
    · rw [hrd i0 hi0, Res.ok_bind, hcol i0, eval_ub _ _ _ _ _ _ _ _ hu0]
      rfl
  · intro hnil
    have h0m : 0 ∈ (rounds 0).eval.cols m := (he 0).mem.2 (by have := h.m2; omega)
    rw [hnil] at h0m
    simp at h0m

/-- No foot comes too close to the upper end when the displacement is not close to a whole number of cells. -/
theorem C82_inside (hfl : RoundsNearest fl) {p : Params Rat} {n m M : Nat} (h : RoundedSetting fl p n m M)
    (hgap : ∀ s : Int, (n : Rat) / 2 ^ 42 < |p.vx * roundedStep fl p M / ((p.xEnd - p.xStart) / n) - s|) :
    FeetInside fl p n (roundedStep fl p M) := by
  intro i hi hu
  obtain ⟨q, β, h0, h1, hδ, -⟩ := CubicShift.locate h.xs (by have := h.n3; omega : 0 < n) (p.vx * roundedStep fl p M)
  rcases foot_value hfl h.xs h.n3 h.nb h.far rfl h.dist hi (fun _ _ => .ok 0) (fun _ _ => .ok 0) (c := fun _ => 0) (fun _ _ => rfl)
    (M := 0) (fun _ _ => by simp) h0 h1 hδ with ⟨y, ey, -⟩ | ⟨-, s, hs⟩
  · rw [ey] at hu
    cases hu
  · exact absurd hs (not_le.2 (hgap s))

/-- Whether a result is undefined. -/
def isUb {α : Type} : Res α → Bool
  | .ub => true
  | _ => false

theorem isUb_iff {α : Type} {r : Res α} : isUb r = true ↔ r = .ub := by cases r <;> simp [isUb]

/-- On the domain from `-5` to `1` in thirty cells, with the velocity `-1` and steps of `0.2`, which is the width of a cell. -/
def outsideAdvection : Params Rat where
  xStart := -5
  xEnd := 1
  nx := 30
  vx := -1
  yStart := -1
  yEnd := 1
  ny := 100
  startTime := 0
  endTime := 1
  maxDt := round53 (1 / 5)

/-- These parameters are sound, but a foot comes too close to the upper end, so that `main` reads a coefficient that does not
exist. -/
theorem C82_past_the_end : RoundedSetting round53 outsideAdvection 30 100 5 ∧
    ¬FeetInside round53 outsideAdvection 30 (roundedStep round53 outsideAdvection 5) := by
  refine ⟨⟨by decide +kernel, by decide +kernel, by decide +kernel, by decide +kernel, rfl, rfl, by norm_num, by norm_num,
    by decide +kernel, by norm_num, by norm_num, by decide +kernel, by norm_num, by decide +kernel⟩, fun h => h 29 (by norm_num) ?_⟩
  have e : isUb ((mkKnots round53 outsideAdvection.xStart outsideAdvection.xEnd 30 3).eval round53 true (fun _ _ => .ok 0)
      (fun _ _ => .ok 0) (footOf round53 outsideAdvection.vx (roundedStep round53 outsideAdvection 5)
        ((mkKnots round53 outsideAdvection.xStart outsideAdvection.xEnd 30 3).grevillePoint round53 29)) (coefsOf (30 + 3) fun _ => 0)) =
      true := by decide +kernel
  exact isUb_iff.1 e

/-- The steps cover the time asked for, up to the rounding. -/
theorem C82_time (hfl : RoundsNearest fl) {p : Params Rat} {n m M : Nat} (h : RoundedSetting fl p n m M) :
    0 < roundedStep fl p M ∧ |M * roundedStep fl p M - (p.endTime - p.startTime)| ≤ 3 / 2 ^ 53 * (p.endTime - p.startTime) ∧
      roundedStep fl p M ≤ (1 + 4 / 2 ^ 53) * p.maxDt := by
  have hM : (0 : Rat) < M := by exact_mod_cast h.steps_pos hfl.toRoundsAll
  have hT : 0 < p.endTime - p.startTime := sub_pos.2 h.ts
  obtain ⟨T, eT⟩ : ∃ T, T = p.endTime - p.startTime := ⟨_, rfl⟩
  rw [← eT] at hT
  rw [roundedStep, ← eT]
  have hT' := fl_pos hfl.toRoundsAll hT
  have hs := div_pos hT' hM
  have h1 := hfl.error T
  have h2 := hfl.error (fl T / M)
  rw [abs_of_pos hT] at h1
  rw [abs_of_pos hs] at h2
  obtain ⟨s, es⟩ : ∃ s, s = fl T / M := ⟨_, rfl⟩
  have hMs : M * s = fl T := by rw [es]; exact mul_div_cancel₀ _ hM.ne'
  have hcount := h.count
  rw [← eT] at hcount
  rw [← es] at h2 hs ⊢
  refine ⟨fl_pos hfl.toRoundsAll hs, ?_, ?_⟩
  · have h3 : |M * fl s - M * s| ≤ fl T / 2 ^ 53 := by
      rw [← mul_sub, abs_mul, abs_of_pos hM, ← hMs, mul_div_assoc]
      exact mul_le_mul_of_nonneg_left h2 hM.le
    rw [hMs] at h3
    have g1 := abs_le.1 h1
    have g3 := abs_le.1 h3
    rw [abs_le]
    constructor <;> linarith [g1.1, g1.2, g3.1, g3.2]
  · have h4 := hfl.error (fl T / p.maxDt)
    rw [abs_of_pos (div_pos hT' h.ds)] at h4
    have h5 : fl (fl T / p.maxDt) ≤ M := by
      have := Int.le_ceil (fl (fl T / p.maxDt))
      rw [hcount] at this
      exact_mod_cast this
    obtain ⟨w, ew⟩ : ∃ w, w = fl T / p.maxDt := ⟨_, rfl⟩
    have hw : fl T = w * p.maxDt := by rw [ew]; exact (div_mul_cancel₀ _ h.ds.ne').symm
    rw [← ew] at h4 h5
    have g4 := abs_le.1 h4
    have h6 : w * (1 - 1 / 2 ^ 53) ≤ M := by linarith [g4.1]
    have h7 : s * M ≤ (1 + 2 / 2 ^ 53) * p.maxDt * M := by
      rw [mul_comm s, hMs, hw]
      have h8 : w ≤ (1 + 2 / 2 ^ 53) * M := by linarith
      have := mul_le_mul_of_nonneg_right h8 h.ds.le
      linarith
    have h9 := le_of_mul_le_mul_right h7 hM
    have g2 := abs_le.1 h2
    linarith [g2.2, h.ds]

/-! ## What the steps add up to -/

section nearStep

variable {a b δ ε η : Rat} {n : Nat} {last next c : Nat → Rat}

/-- A step in terms of the fraction of a cell and of the whole cells of the displacement. -/
theorem near_values (hab : a < b) (hn : 3 < n) (h : AdvectedNear a b n δ ε η last next c) {V : Rat} (hV : ∀ i, i < n → |last i| ≤ V) :
    ∃ (q : Int) (β : Rat), 0 ≤ β ∧ β < 1 ∧ δ = -((q : Rat) + β) * ((b - a) / n) ∧
      (∀ i : Nat, i < n → |next i - CubicShift.val n c β ((i : Int) + q)| ≤ η * V) ∧
      ∀ i : Nat, i < n → |CubicShift.val n c 0 i - last i| ≤ ε * V := by
  obtain ⟨q, β, h0, h1, hδ, hq⟩ := CubicShift.locate hab (by omega : 0 < n) δ
  refine ⟨q, β, h0, h1, hδ, fun i hi => ?_, fun i hi => ?_⟩
  · obtain ⟨m, k, hm, hz, e, y1, y2⟩ := hq i
    have := h.shifted V hV i hi k _ y1 y2 e
    rwa [CubicShift.value_eq hab hn h.period hm h0 h1.le,
      ← CubicShift.periodic_int (fun z => CubicShift.val_periodic n c β z) m k, ← hz] at this
  · have := h.close V hV i hi
    rwa [← add_zero ((i : Nat) : Rat), CubicShift.value_eq hab hn h.period hi le_rfl zero_le_one] at this

/-- A step keeps the sum of the values. -/
theorem near_mass (hab : a < b) (hn : 3 < n) (h : AdvectedNear a b n δ ε η last next c) {V : Rat} (hV : ∀ i, i < n → |last i| ≤ V) :
    |∑ i ∈ Finset.range n, next i - ∑ i ∈ Finset.range n, last i| ≤ n * (ε + η) * V := by
  obtain ⟨q, β, h0, h1, -, h2, h3⟩ := near_values hab hn h hV
  have e1 := CubicShift.sum_val n c β q
  have e2 := CubicShift.sum_val n c 0 0
  have b1 : |∑ i ∈ Finset.range n, (next i - CubicShift.val n c β ((i : Int) + q))| ≤ n * (η * V) := by
    refine (Finset.abs_sum_le_sum_abs _ _).trans ((Finset.sum_le_sum fun i hi => h2 i (Finset.mem_range.1 hi)).trans ?_)
    rw [Finset.sum_const, Finset.card_range, nsmul_eq_mul]
  have b2 : |∑ i ∈ Finset.range n, (CubicShift.val n c 0 i - last i)| ≤ n * (ε * V) := by
    refine (Finset.abs_sum_le_sum_abs _ _).trans ((Finset.sum_le_sum fun i hi => h3 i (Finset.mem_range.1 hi)).trans ?_)
    rw [Finset.sum_const, Finset.card_range, nsmul_eq_mul]
  simp only [add_zero] at e2
  rw [Finset.sum_sub_distrib, e1] at b1
  rw [Finset.sum_sub_distrib, e2] at b2
  have g1 := abs_le.1 b1
  have g2 := abs_le.1 b2
  rw [abs_le]
  constructor <;> linarith [g1.1, g1.2, g2.1, g2.2]

/-- The sum of the squares of values that are known up to an error. -/
theorem squares_near {u v : Nat → Rat} {θ V E : Rat} (hθ : 0 ≤ θ) (hVE : V ^ 2 ≤ E) (h : ∀ i, i < n → |u i - v i| ≤ θ * V) :
    ∑ i ∈ Finset.range n, u i ^ 2 ≤ (1 + θ) * ∑ i ∈ Finset.range n, v i ^ 2 + n * ((θ + θ ^ 2) * E) := by
  have hE0 : 0 ≤ E := (sq_nonneg _).trans hVE
  have hsq : ∀ i, i < n → u i ^ 2 ≤ (1 + θ) * v i ^ 2 + (θ + θ ^ 2) * E := by
    intro i hi
    have h5 := h i hi
    obtain ⟨e, he⟩ : ∃ e, e = u i - v i := ⟨_, rfl⟩
    rw [← he] at h5
    have h6 : e ^ 2 ≤ θ ^ 2 * E := by
      calc e ^ 2 = |e| ^ 2 := (sq_abs e).symm
        _ ≤ (θ * V) ^ 2 := pow_le_pow_left₀ (abs_nonneg _) h5 2
        _ = θ ^ 2 * V ^ 2 := by ring
        _ ≤ _ := mul_le_mul_of_nonneg_left hVE (sq_nonneg _)
    rw [show u i = v i + e by rw [he]; ring]
    rcases hθ.eq_or_lt with h0 | h0
    · rw [← h0] at h6 ⊢
      have h7 : e = 0 := by
        have : e ^ 2 ≤ 0 := by linarith
        exact pow_eq_zero_iff (two_ne_zero) |>.1 (le_antisymm this (sq_nonneg _))
      rw [h7]
      exact le_of_eq (by ring)
    · have h7 : 2 * v i * e ≤ θ * v i ^ 2 + θ * E := by
        have h8 : 0 ≤ (θ * v i - e) ^ 2 := sq_nonneg _
        have h9 : θ * (2 * v i * e) ≤ θ * (θ * v i ^ 2 + θ * E) := by nlinarith
        exact le_of_mul_le_mul_left h9 h0
      nlinarith
  refine (Finset.sum_le_sum fun i hi => hsq i (Finset.mem_range.1 hi)).trans (le_of_eq ?_)
  rw [Finset.sum_add_distrib, ← Finset.mul_sum, Finset.sum_const, Finset.card_range, nsmul_eq_mul]

/-- A step does not make the sum of the squares larger, but for the errors. -/
theorem near_energy (hab : a < b) (hn : 3 < n) (hε : 0 ≤ ε) (hη : 0 ≤ η) (hs : ε + η ≤ 1) (h : AdvectedNear a b n δ ε η last next c) :
    ∑ i ∈ Finset.range n, next i ^ 2 ≤ (1 + 9 * n * (ε + η)) * ∑ i ∈ Finset.range n, last i ^ 2 := by
  obtain ⟨X, hX, hmax⟩ := Finset.exists_max_image (Finset.range n) (fun i => |last i|) ⟨0, Finset.mem_range.2 (by omega)⟩
  obtain ⟨q, β, h0, h1, -, h2, h3⟩ := near_values hab hn h (V := |last X|) fun i hi => hmax i (Finset.mem_range.2 hi)
  obtain ⟨E, hE⟩ : ∃ E, E = ∑ i ∈ Finset.range n, last i ^ 2 := ⟨_, rfl⟩
  have hVE : |last X| ^ 2 ≤ E := by
    rw [hE, sq_abs]
    exact Finset.single_le_sum (f := fun i => last i ^ 2) (fun i _ => sq_nonneg _) hX
  have hE0 : 0 ≤ E := (sq_nonneg _).trans hVE
  have hn3 : (3 : Rat) ≤ n := by exact_mod_cast hn.le
  obtain ⟨θ, hθ⟩ : ∃ θ, θ = ε + η := ⟨_, rfl⟩
  have hθ0 : 0 ≤ θ := by rw [hθ]; linarith
  have hV0 : 0 ≤ |last X| := abs_nonneg _
  rw [← hθ] at hs ⊢
  have b1 := squares_near (n := n) hθ0 hVE fun i hi => (h2 i hi).trans (mul_le_mul_of_nonneg_right (by linarith) hV0)
  have b2 := squares_near (n := n) (v := last) hθ0 hVE fun i hi => (h3 i hi).trans (mul_le_mul_of_nonneg_right (by linarith) hV0)
  have hid := CubicShift.sum_squares n c β q
  have hd2 : 0 ≤ β ^ 2 * (1 - β) ^ 2 / 12 * ∑ i ∈ Finset.range n, (CubicShift.ext n c i - 2 * CubicShift.ext n c ((i : Int) + 1) +
      CubicShift.ext n c ((i : Int) + 2)) ^ 2 := mul_nonneg (by positivity) (Finset.sum_nonneg fun _ _ => sq_nonneg _)
  have h1' : 0 ≤ 1 - β := by linarith
  have hd3 : 0 ≤ β ^ 3 * (1 - β) ^ 3 / 36 * ∑ i ∈ Finset.range n, (CubicShift.ext n c i - 3 * CubicShift.ext n c ((i : Int) + 1) +
      3 * CubicShift.ext n c ((i : Int) + 2) - CubicShift.ext n c ((i : Int) + 3)) ^ 2 :=
    mul_nonneg (by positivity) (Finset.sum_nonneg fun _ _ => sq_nonneg _)
  rw [← hE] at b2 ⊢
  obtain ⟨S, hS⟩ : ∃ S, S = ∑ i ∈ Finset.range n, CubicShift.val n c β ((i : Int) + q) ^ 2 := ⟨_, rfl⟩
  rw [← hS] at b1 hid
  have hSE : S ≤ (1 + θ) * E + n * ((θ + θ ^ 2) * E) := by linarith
  have h4 := mul_le_mul_of_nonneg_left hSE (by linarith : 0 ≤ 1 + θ)
  refine b1.trans ((add_le_add_left h4 _).trans ?_)
  rw [show (1 + θ) * ((1 + θ) * E + n * ((θ + θ ^ 2) * E)) + n * ((θ + θ ^ 2) * E) =
    (1 + (2 * θ + θ * θ + n * (θ + θ * θ) * (2 + θ))) * E by ring]
  refine mul_le_mul_of_nonneg_right (add_le_add_right ?_ 1) hE0
  have g1 : θ * θ ≤ θ * 1 := mul_le_mul_of_nonneg_left hs hθ0
  have g2 : 3 * θ ≤ n * θ := mul_le_mul_of_nonneg_right hn3 hθ0
  have g3 : n * (θ + θ * θ) ≤ n * (2 * θ) := mul_le_mul_of_nonneg_left (by linarith) (by linarith)
  have g4 : n * (θ + θ * θ) * (2 + θ) ≤ n * (2 * θ) * 3 :=
    mul_le_mul g3 (by linarith) (by linarith) (by positivity)
  linarith

/-- A step by nearly whole cells moves the values. -/
theorem near_shift (hab : a < b) (hn : 3 < n) (h : AdvectedNear a b n δ ε η last next c) {V : Rat} (hV : ∀ i, i < n → |last i| ≤ V)
    {s : Int} {θ : Rat} (hθ : θ ≤ 1 / 4) (hs : |δ - s * ((b - a) / n)| ≤ θ * ((b - a) / n)) {i k : Nat} (hi : i < n) (hk : k < n)
    (hik : ∃ l : Int, (i : Int) - s = k + l * n) : |next i - last k| ≤ (ε + η + 96 * θ) * V := by
  obtain ⟨q, β, h0, h1, hδ, h2, h3⟩ := near_values hab hn h hV
  have hn' : (0 : Rat) < n := by exact_mod_cast (by omega : 0 < n)
  have hh : 0 < (b - a) / (n : Rat) := div_pos (sub_pos.2 hab) hn'
  obtain ⟨l, hl⟩ := hik
  have hl' : (i : Rat) - s = k + l * n := by exact_mod_cast hl
  have hθ0 : 0 ≤ θ := by
    by_contra hlt
    push Not at hlt
    have := mul_neg_of_neg_of_pos hlt hh
    linarith [abs_nonneg (δ - s * ((b - a) / n))]
  have hpos : |(k : Rat) + l * n - (((i : Int) + q : Int) + β)| ≤ θ := by
    rw [hδ, ← sub_mul, abs_mul, abs_of_pos hh] at hs
    have := le_of_mul_le_mul_right hs hh
    rw [show (k : Rat) + l * n - (((i : Int) + q : Int) + β) = -((q : Rat) + β) - s by push_cast; linear_combination -hl']
    exact this
  have hkn : (k : Rat) ≤ n := by exact_mod_cast hk.le
  have h5 := raw_near hn h.period (h.coefs V hV) hθ (Nat.cast_nonneg k) (by linarith) h0 h1 hpos
  have h6 := raw_val hn h.period hk (β := 0) le_rfl zero_le_one
  rw [add_zero] at h6
  rw [h6] at h5
  have g1 := abs_le.1 (h2 i hi)
  have g2 := abs_le.1 (h3 k hk)
  have g3 := abs_le.1 h5
  rw [abs_le]
  constructor <;> linarith [g1.1, g1.2, g2.1, g2.2, g3.1, g3.2]

variable {d : Nat → Nat → Rat} {M : Nat}

theorem near_run_energy (hab : a < b) (hn : 3 < n) (hε : 0 ≤ ε) (hη : 0 ≤ η) (hs : ε + η ≤ 1)
    (hd : ∀ k, k < M → ∃ c, AdvectedNear a b n δ ε η (d k) (d (k + 1)) c) (k : Nat) (hk : k ≤ M) :
    ∑ i ∈ Finset.range n, d k i ^ 2 ≤ (1 + 9 * n * (ε + η)) ^ k * ∑ i ∈ Finset.range n, d 0 i ^ 2 := by
  induction k with
  | zero => simp
  | succ k ih =>
    obtain ⟨c, hc⟩ := hd k (by omega)
    refine (near_energy hab hn hε hη hs hc).trans ?_
    rw [pow_succ' _ k, mul_assoc (1 + _)]
    exact mul_le_mul_of_nonneg_left (ih (by omega)) (by
      have h1 : (0 : Rat) ≤ 9 * n * (ε + η) := mul_nonneg (by positivity) (add_nonneg hε hη)
      linarith)

/-- All the values stay below twice the root of the sum of the squares at the start. -/
theorem near_run_bound (hab : a < b) (hn : 3 < n) (hε : 0 ≤ ε) (hη : 0 ≤ η) (hs : ε + η ≤ 1)
    (hd : ∀ k, k < M → ∃ c, AdvectedNear a b n δ ε η (d k) (d (k + 1)) c) {W : Rat} (hW0 : 0 ≤ W)
    (hW : ∑ i ∈ Finset.range n, d 0 i ^ 2 ≤ W ^ 2) (hM : 18 * M * n * (ε + η) ≤ 1) (k : Nat) (hk : k ≤ M) (i : Nat) (hi : i < n) :
    |d k i| ≤ 2 * W := by
  obtain ⟨q, hq⟩ : ∃ q : Rat, q = 9 * n * (ε + η) := ⟨_, rfl⟩
  have hq0 : 0 ≤ q := by rw [hq]; positivity
  have hMq : 2 * M * q ≤ 1 := by rw [hq]; linarith
  have hpow : ∀ k : Nat, k ≤ M → (1 + q) ^ k ≤ 1 + 2 * k * q := by
    intro k
    induction k with
    | zero => intro _; simp
    | succ k ih =>
      intro hk
      have h1 := ih (by omega)
      have hkM : (k : Rat) ≤ M := by exact_mod_cast (by omega : k ≤ M)
      have h2 : 2 * (k : Rat) * q ≤ 1 := le_trans (by
        have := mul_le_mul_of_nonneg_right hkM hq0
        linarith) hMq
      rw [pow_succ]
      refine (mul_le_mul_of_nonneg_right h1 (by linarith)).trans ?_
      have h3 : 2 * (k : Rat) * q * q ≤ 1 * q := mul_le_mul_of_nonneg_right h2 hq0
      push_cast
      linarith
  have hE := near_run_energy hab hn hε hη hs hd k hk
  rw [← hq] at hE
  have hkM : (k : Rat) ≤ M := by exact_mod_cast hk
  have h2 : (1 + q) ^ k ≤ 2 := (hpow k hk).trans (by
    have := mul_le_mul_of_nonneg_right hkM hq0
    linarith)
  have h3 : d k i ^ 2 ≤ 2 * W ^ 2 := by
    refine (Finset.single_le_sum (f := fun i => d k i ^ 2) (fun i _ => sq_nonneg _) (Finset.mem_range.2 hi)).trans (hE.trans ?_)
    exact mul_le_mul h2 hW (Finset.sum_nonneg fun _ _ => sq_nonneg _) (by norm_num)
  refine abs_le_of_sq_le_sq (h3.trans ?_) (by linarith)
  have := sq_nonneg W
  linarith

end nearStep

/-- The start of the run, at the points as computed. -/
def roundedStart (fl : Rat → Rat) (p : Params Rat) (density : Rat → Rat → Rat) (n m : Nat) (i j : Nat) : Rat :=
  density ((mkKnots fl p.xStart p.xEnd n 3).grevillePoint fl i)
    (fl (p.yStart + fl (fl (j : Rat) * fl (fl (p.yEnd - p.yStart) / fl ((m - 1 : Nat) : Rat)))))

/-- What a run of the program with rounding is asked: it ends. -/
structure RoundedRun (fl : Rat → Rat) (L : Lapack Rat) (ρ : Nat → (Nat → Nat → Rat) → Rat) (p : Params Rat) (n m M : Nat) (κ : Rat)
    (density : Rat → Rat → Rat) (r : Mat Rat) : Prop where
  rounds : RoundsNearest fl
  lapack : L.Backward ρ
  setting : RoundedSetting fl p n m M
  run : ∃ (junk : Nat → Nat → Nat → Rat) (order : List (List I64)) (setup : Sched) (B : Rounded.Builder) (rounds : Nat → Round Rat),
    order.Perm (Support.policy [BitVec.ofNat 64 n, BitVec.ofNat 64 m]) ∧ RoundedBuilder fl L ρ p n κ setup B ∧
    (∀ k, (rounds k).order.Perm (Support.policy [BitVec.ofNat 64 n, BitVec.ofNat 64 m])) ∧
    (∀ k, (rounds k).build.Valid) ∧ (∀ k, (rounds k).eval.Valid) ∧
    RoundedAdvection.main fl L p density junk order setup rounds = .ok r

section nearRun

variable {p : Params Rat} {n m M : Nat} {κ : Rat} {density : Rat → Rat → Rat} {r : Mat Rat}

theorem RoundedRun.steps (h : RoundedRun fl L ρ p n m M κ density r) {j : Nat} (hj : j < m) :
    ∃ d : Nat → Nat → Rat, (∀ i, i < n → d 0 i = roundedStart fl p density n m i j) ∧ (∀ i, i < n → r.val i j = d M i) ∧
      ∀ k, k < M → ∃ c, AdvectedNear p.xStart p.xEnd n (p.vx * roundedStep fl p M) (4 * κ) (n / 2 ^ 35) (d k) (d (k + 1)) c := by
  obtain ⟨junk, order, setup, B, rounds, h1, h2, h3, h4, h5, h6⟩ := h.run
  have inside : FeetInside fl p n (roundedStep fl p M) := by
    by_contra hno
    rw [C82_reads_outside h.rounds h.lapack h.setting h2 hno density junk order h1 rounds h3 h4 h5] at h6
    cases h6
  obtain ⟨d, r', e, -, -, d0, ds, dM⟩ := C82_advects_partial h.rounds h.lapack h.setting h2 inside density junk order h1 rounds h3 h4 h5
  obtain rfl := Res.ok.inj (h6.symm.trans e)
  exact ⟨fun k i => d k i j, fun i hi => d0 i j hi hj, fun i hi => dM i j hi hj, fun k hk => ds k hk j hj⟩

theorem RoundedRun.small (h : RoundedRun fl L ρ p n m M κ density r) : 0 ≤ 4 * κ ∧ (0 : Rat) ≤ n / 2 ^ 35 ∧ 4 * κ + n / 2 ^ 35 ≤ 1 := by
  obtain ⟨junk, order, setup, B, rounds, h1, h2, -⟩ := h.run
  obtain ⟨D, ε, hD, -, hε, hκ⟩ := h2.error
  have hm := h.setting.moderate
  have hΔ := (positionError_small h.setting.xs h.setting.nb h.setting.n3
    (by linarith [h.setting.xs] : |p.xStart| * n ≤ 2 ^ 46 * (p.xEnd - p.xStart))).1
  have hε0 : 0 ≤ ε := by rw [hε]; positivity
  have hres := residual_nonneg h.lapack (show (0 : Rat) ≤ 1 + ε + 1 / 2 ^ 51 by positivity) hD B.solver
  have hκ0 : 0 ≤ κ := by rw [hκ]; positivity
  have hκ1 := h2.small
  have hn : (n : Rat) ≤ 35000 := by exact_mod_cast h.setting.nb
  refine ⟨by linarith, by positivity, ?_⟩
  have : (n : Rat) / 2 ^ 35 ≤ 1 / 2 := by rw [div_le_iff₀ (by norm_num)]; linarith
  linarith

/-- The sum of the squares of the values along each line does not grow, but for the errors. -/
theorem C82_energy (h : RoundedRun fl L ρ p n m M κ density r) {j : Nat} (hj : j < m) :
    ∑ i ∈ Finset.range n, r.val i j ^ 2 ≤
      (1 + 9 * n * (4 * κ + n / 2 ^ 35)) ^ M * ∑ i ∈ Finset.range n, roundedStart fl p density n m i j ^ 2 := by
  obtain ⟨d, d0, dM, hd⟩ := h.steps hj
  obtain ⟨s1, s2, s3⟩ := h.small
  have := near_run_energy h.setting.xs h.setting.n3 s1 s2 s3 hd M le_rfl
  rw [Finset.sum_congr rfl fun i hi => by rw [dM i (Finset.mem_range.1 hi)]]
  refine this.trans (le_of_eq ?_)
  rw [Finset.sum_congr rfl fun i hi => by rw [d0 i (Finset.mem_range.1 hi)]]

/-- The sum of the values along each line is kept, up to the errors. -/
theorem C82_mass (h : RoundedRun fl L ρ p n m M κ density r) {j : Nat} (hj : j < m) {W : Rat} (hW0 : 0 ≤ W)
    (hW : ∑ i ∈ Finset.range n, roundedStart fl p density n m i j ^ 2 ≤ W ^ 2) (hM : 18 * M * n * (4 * κ + n / 2 ^ 35) ≤ 1) :
    |∑ i ∈ Finset.range n, r.val i j - ∑ i ∈ Finset.range n, roundedStart fl p density n m i j| ≤
      2 * M * n * (4 * κ + n / 2 ^ 35) * W := by
  obtain ⟨d, d0, dM, hd⟩ := h.steps hj
  obtain ⟨s1, s2, s3⟩ := h.small
  have hb := near_run_bound h.setting.xs h.setting.n3 s1 s2 s3 hd hW0 (by
    rw [Finset.sum_congr rfl fun i hi => by rw [d0 i (Finset.mem_range.1 hi)]]; exact hW) hM
  have key : ∀ k : Nat, k ≤ M → |∑ i ∈ Finset.range n, d k i - ∑ i ∈ Finset.range n, d 0 i| ≤
      k * (2 * n * (4 * κ + n / 2 ^ 35) * W) := by
    intro k
    induction k with
    | zero => intro _; simp
    | succ k ih =>
      intro hk
      obtain ⟨c, hc⟩ := hd k (by omega)
      have h5 := near_mass h.setting.xs h.setting.n3 hc (hb k (by omega))
      have h6 := ih (by omega)
      have h7 := abs_sub_le (∑ i ∈ Finset.range n, d (k + 1) i) (∑ i ∈ Finset.range n, d k i) (∑ i ∈ Finset.range n, d 0 i)
      push_cast
      linarith
  have := key M le_rfl
  rw [Finset.sum_congr rfl fun i hi => dM i (Finset.mem_range.1 hi), Finset.sum_congr rfl fun i hi => (d0 i (Finset.mem_range.1 hi)).symm]
  refine this.trans (le_of_eq (by ring))

/-- If a step displaces by nearly whole cells, the run carries the values along the characteristics, up to the errors. -/
theorem C82_shift (h : RoundedRun fl L ρ p n m M κ density r) {j : Nat} (hj : j < m) {W : Rat} (hW0 : 0 ≤ W)
    (hW : ∑ i ∈ Finset.range n, roundedStart fl p density n m i j ^ 2 ≤ W ^ 2) (hM : 18 * M * n * (4 * κ + n / 2 ^ 35) ≤ 1)
    {s : Int} {θ : Rat} (hθ : θ ≤ 1 / 4)
    (hs : |p.vx * roundedStep fl p M - s * ((p.xEnd - p.xStart) / n)| ≤ θ * ((p.xEnd - p.xStart) / n)) {i k : Nat} (hi : i < n)
    (hk : k < n) (hik : ∃ l : Int, (i : Int) - M * s = k + l * n) :
    |r.val i j - roundedStart fl p density n m k j| ≤ 2 * M * (4 * κ + n / 2 ^ 35 + 96 * θ) * W := by
  obtain ⟨d, d0, dM, hd⟩ := h.steps hj
  obtain ⟨s1, s2, s3⟩ := h.small
  have hn3 := h.setting.n3
  have hb := near_run_bound h.setting.xs h.setting.n3 s1 s2 s3 hd hW0 (by
    rw [Finset.sum_congr rfl fun i hi => by rw [d0 i (Finset.mem_range.1 hi)]]; exact hW) hM
  have hpos : (0 : Int) < n := by omega
  have key : ∀ t : Nat, t ≤ M → ∀ i k, i < n → k < n → (∃ l : Int, (i : Int) - t * s = k + l * n) →
      |d t i - d 0 k| ≤ t * (2 * (4 * κ + n / 2 ^ 35 + 96 * θ) * W) := by
    intro t
    induction t with
    | zero =>
      rintro _ i k hi hk ⟨l, hl⟩
      have hl0 : l = 0 := by
        have g1 : l * n < 1 * n := by omega
        have g2 : -1 * (n : Int) < l * n := by omega
        have := lt_of_mul_lt_mul_right g1 hpos.le
        have := lt_of_mul_lt_mul_right g2 hpos.le
        omega
      have : i = k := by rw [hl0] at hl; omega
      subst this
      simp
    | succ t ih =>
      rintro ht i k hi hk ⟨l, hl⟩
      obtain ⟨c, hc⟩ := hd t (by omega)
      have m0 := Int.emod_nonneg ((i : Int) - s) hpos.ne'
      have m1 := Int.emod_lt_of_pos ((i : Int) - s) hpos
      obtain ⟨o, ho⟩ := Int.eq_ofNat_of_zero_le m0
      have hz : (i : Int) - s = o + ((i : Int) - s) / n * n := by rw [← ho]; exact (Int.emod_add_ediv_mul _ _).symm
      have h5 := near_shift h.setting.xs h.setting.n3 hc (hb t (by omega)) hθ hs hi (k := o) (by omega) ⟨_, hz⟩
      have h6 := ih (by omega) o k (by omega) hk ⟨l - ((i : Int) - s) / n, by
        push_cast at hl
        linear_combination hl - hz⟩
      have h7 := abs_sub_le (d (t + 1) i) (d t o) (d 0 k)
      push_cast
      linarith
  have := key M le_rfl i k hi hk hik
  rw [dM i hi, ← d0 k hk]
  exact this.trans (le_of_eq (by ring))

end nearRun

/-! ## The parameters of the example -/

/-- The constants of `characteristics_advection.cpp` (107-130), as they are stored. -/
def storedAdvection : Params Rat where
  xStart := -1
  xEnd := 1
  nx := 100
  vx := round53 (1 / 5)
  yStart := -1
  yEnd := 1
  ny := 100
  startTime := 0
  endTime := 10
  maxDt := round53 (1 / 10)

/-- The parameters of the example are sound: it takes a hundred steps, and no foot comes too close to the upper end. -/
theorem C82_example : RoundedSetting round53 storedAdvection 100 100 100 ∧
    FeetInside round53 storedAdvection 100 (roundedStep round53 storedAdvection 100) := by
  refine ⟨⟨by decide +kernel, by decide +kernel, by decide +kernel, by decide +kernel, rfl, rfl, by norm_num, by norm_num,
    by decide +kernel, by norm_num, by norm_num, by decide +kernel, by norm_num, by decide +kernel⟩, fun i hi h => ?_⟩
  have e : ∀ i : Fin 100, isUb ((mkKnots round53 storedAdvection.xStart storedAdvection.xEnd 100 3).eval round53 true (fun _ _ => .ok 0)
      (fun _ _ => .ok 0) (footOf round53 storedAdvection.vx (roundedStep round53 storedAdvection 100)
        ((mkKnots round53 storedAdvection.xStart storedAdvection.xEnd 100 3).grevillePoint round53 i)) (coefsOf (100 + 3) fun _ => 0)) =
      false := by decide +kernel
  have := e ⟨i, hi⟩
  rw [isUb_iff.2 h] at this
  cases this

/-- In the program a step displaces by one cell, up to the rounding, and the hundred steps bring the density back to where it
was: the result is the start, up to `10^-6`, if the error of the builder is at most `2^-40` and the sum of the squares of the
density along the lines is at most `1`. -/
theorem C82_returns {κ : Rat} (hκ : κ ≤ 1 / 2 ^ 40) {density : Rat → Rat → Rat} {r : Mat Rat}
    (h : RoundedRun round53 L ρ storedAdvection 100 100 100 κ density r)
    (hW : ∀ j, j < 100 → ∑ i ∈ Finset.range 100, roundedStart round53 storedAdvection density 100 100 i j ^ 2 ≤ 1 ^ 2) {i j : Nat}
    (hi : i < 100) (hj : j < 100) : |r.val i j - roundedStart round53 storedAdvection density 100 100 i j| ≤ 1 / 10 ^ 6 := by
  have := C82_shift h hj (W := 1) (by norm_num) (hW j hj) (by norm_num at hκ ⊢; linarith) (s := 1) (θ := 1 / 2 ^ 50) (by norm_num)
    (by decide +kernel) hi hi ⟨-1, by push_cast; ring⟩
  norm_num at this hκ ⊢
  linarith

/-- The hypotheses of `C82_advects_partial`, and those of the theorems on runs, are met on four cells of `[0, 1]`, with Cramer's rule
and steps of a third of a cell. -/
example (density : Rat → Rat → Rat) : ∃ (p : Params Rat) (κ : Rat) (r : Mat Rat),
    RoundedRun round53 cramerLapack (fun _ _ => 0) p 4 2 3 κ density r := by
  obtain ⟨p, hp⟩ : ∃ p : Params Rat, p = ⟨0, 1, 4, 1, 0, 1, 2, 0, 1 / 4, 1 / 12⟩ := ⟨_, rfl⟩
  have hs : RoundedSetting round53 p 4 2 3 := by
    rw [hp]
    exact ⟨by decide +kernel, by decide +kernel, by decide +kernel, by decide +kernel, rfl, rfl, by norm_num, by norm_num,
      by decide +kernel, by norm_num, by norm_num, by decide +kernel, by norm_num, by decide +kernel⟩
  have hB : (match Rounded.Builder.mk' round53 cramerLapack seqSched (.uniform (mkKnots round53 0 1 4 3) true) (seg () 0 4)
      (uniformPoints round53 (mkKnots round53 0 1 4 3)) with
      | .ok B => (match B.solver with | .getrs _ _ => true | _ => false) | _ => false) = true := by decide +kernel
  split at hB
  case h_2 => cases hB
  case h_1 B eB =>
    cases hS : B.solver <;> rw [hS] at hB <;> simp only [Bool.false_eq_true] at hB
    have hσ : seqSched.Valid := ⟨fun _ => List.Perm.refl _, fun _ => List.Perm.refl _⟩
    have hb : RoundedBuilder round53 cramerLapack (fun _ _ => 0) p 4 _ seqSched B :=
      ⟨hσ, by rw [hp]; exact eB, ⟨0, _, le_rfl, by rw [hS]; trivial, rfl, rfl⟩, by
        rw [hS, hp]
        simp only [Solver.residual, positionError]
        norm_num⟩
    have hf : FeetInside round53 p 4 (roundedStep round53 p 3) := by
      refine C82_inside round53_nearest hs fun s => ?_
      have h1 : (1 : Rat) / 4 < p.vx * roundedStep round53 p 3 / ((p.xEnd - p.xStart) / (4 : Nat)) := by rw [hp]; decide +kernel
      have h2 : p.vx * roundedStep round53 p 3 / ((p.xEnd - p.xStart) / (4 : Nat)) < 1 / 2 := by rw [hp]; decide +kernel
      rcases le_or_gt s 0 with h3 | h3
      · have h4 : (s : Rat) ≤ 0 := by exact_mod_cast h3
        rw [abs_of_pos (by linarith)]
        norm_num at h1 h2 ⊢
        linarith
      · have h4 : (1 : Rat) ≤ s := by exact_mod_cast h3
        rw [abs_of_neg (by linarith)]
        norm_num at h1 h2 ⊢
        linarith
    obtain ⟨d, r, e, -⟩ := C82_advects_partial round53_nearest cramerLapack_backward hs hb hf density (fun _ _ _ => 0) _ (List.Perm.refl _)
      (fun _ => ⟨_, seqSched, fun _ _ => 0, seqSched⟩) (fun _ => List.Perm.refl _) (fun _ => hσ) (fun _ => hσ)
    exact ⟨p, _, r, round53_nearest, cramerLapack_backward, hs, _, _, _, B, _, List.Perm.refl _, hb, fun _ => List.Perm.refl _,
      fun _ => hσ, fun _ => hσ, e⟩

end DDC.Props
