import Verif.Model.RoundedHeat
import Verif.Lemmas.RoundedNear
import Verif.Props.C62
import Verif.Props.C76
import Verif.Props.C82

/-!
# C83 — the heat equation of the examples, with rounding
-/

namespace DDC.Props

open Tup Spec Heat RoundedHeat Rounded
open One (seg el vec)

set_option linter.unusedSectionVars false

variable {fl : Rat → Rat}

/-- What is asked of the parameters: as for C76, and the sizes and the number of steps are far from the limits of `double`. -/
structure RoundedHeatSetting (p : Params Rat) (nx ny : Nat) : Prop where
  xs : p.xStart < p.xEnd
  ys : p.yStart < p.yEnd
  ts : p.startTime < p.endTime
  kxp : 0 < p.kx
  kyp : 0 < p.ky
  enx : p.nx = BitVec.ofNat 64 nx
  eny : p.ny = BitVec.ofNat 64 ny
  x2 : 2 ≤ nx
  y2 : 2 ≤ ny
  xb : nx + 2 ≤ 2 ^ 53
  yb : ny + 2 ≤ 2 ^ 53
  cells : (nx + 2) * (ny + 2) < 2 ^ 64
  steps : p.endTime - p.startTime ≤ 2 ^ 49 * stableStep p.kx (gap p.xStart p.xEnd nx) p.ky (gap p.yStart p.yEnd ny)

/-- The number of stable time steps in the time interval, not an integer in general. -/
def stepRatio (p : Params Rat) (nx ny : Nat) : Rat :=
  (p.endTime - p.startTime) / stableStep p.kx (gap p.xStart p.xEnd nx) p.ky (gap p.yStart p.yEnd ny)

/-- The growth of rounding errors, relative to the largest temperature, in `N` time steps. -/
def heatTol (N : Nat) : Rat := (1 + 1 / 2 ^ 45) ^ N - 1

/-- `x` are the coordinates of `n` points from `a` to `b`, up to rounding. -/
def PointsNear (a b : Rat) (n : Nat) (x : Nat → Rat) : Prop :=
  (∀ i j, i ≤ j → x i ≤ x j) ∧ ∀ i, i < n →
    |x i - (a + i * gap a b n)| ≤ (3 * (|a| + |b| + gap a b n) + 8 * ((n + 2 : Nat) * gap a b n)) / 2 ^ 53

/-! ## One step -/

/-- The second difference as computed. -/
theorem second_difference (hfl : RoundsAll fl) {r c l V : Rat} (hr : |r| ≤ V) (hc : |c| ≤ V) (hl : |l| ≤ V) :
    |fl (fl (r - fl (2 * c)) + l) - (r - 2 * c + l)| ≤ 10 / 2 ^ 53 * V := by
  have hV : 0 ≤ V := (abs_nonneg _).trans hr
  have e1 := hfl.error (2 * c)
  have e2 := hfl.error (r - fl (2 * c))
  have e3 := hfl.error (fl (r - fl (2 * c)) + l)
  set a := fl (2 * c)
  set b := fl (r - a)
  set s := fl (b + l)
  have h2c : |2 * c| ≤ 2 * V := by rw [abs_mul, abs_of_pos (by norm_num : (0 : Rat) < 2)]; linarith
  have f1 : |a - 2 * c| ≤ 2 * V / 2 ^ 53 := e1.trans (by gcongr)
  have g2 : |r - a| ≤ 31 / 10 * V := by
    rw [abs_le] at *; norm_num at *; constructor <;> linarith [hr.1, hr.2, hc.1, hc.2, f1.1, f1.2]
  have f2 : |b - (r - a)| ≤ 31 / 10 * V / 2 ^ 53 := e2.trans (by gcongr)
  have g3 : |b + l| ≤ 42 / 10 * V := by
    rw [abs_le] at *; norm_num at *; constructor <;> linarith [hl.1, hl.2, g2.1, g2.2, f2.1, f2.2]
  have f3 : |s - (b + l)| ≤ 42 / 10 * V / 2 ^ 53 := e3.trans (by gcongr)
  rw [abs_le] at *; norm_num at *
  constructor <;> linarith [f1.1, f1.2, f2.1, f2.2, f3.1, f3.2]

/-- What is added in a dimension, as computed: `k dt / d²` times the second difference. -/
theorem inc_error (hfl : RoundsAll fl) {k dt dt' q inv' : Rat} (hk : 0 < k) (hdt : 0 < dt) (hq : 0 < q) (h1 : Near 2 dt' dt)
    (h2 : Near 11 inv' q) {r c l V : Rat} (hr : |r| ≤ V) (hc : |c| ≤ V) (hl : |l| ≤ V) :
    |incOf fl k dt' inv' r c l - k * dt * q * (r - 2 * c + l)| ≤ 80 / 2 ^ 53 * (k * dt * q) * V := by
  have hs := second_difference hfl hr hc hl
  rw [incOf]
  set s := fl (fl (r - fl (2 * c)) + l)
  have hV : 0 ≤ V := (abs_nonneg _).trans hr
  have n1 : Near 16 (fl (fl (fl (k * dt') * s) * inv')) (k * dt * s * q) :=
    (((((((Near.refl k).mul h1).fl hfl).mul (Near.refl s)).fl hfl).mul h2).fl hfl)
  have hup := up_le 16 (by norm_num)
  have hC : 0 < k * dt * q := mul_pos (mul_pos hk hdt) hq
  set C := k * dt * q
  have hs' : |s| ≤ 41 / 10 * V := by
    rw [abs_le] at *; norm_num at *; constructor <;> linarith [hr.1, hr.2, hc.1, hc.2, hl.1, hl.2, hs.1, hs.2]
  rw [Near, show k * dt * s * q = C * s by ring, abs_mul, abs_of_pos hC] at n1
  have n2 : (up 16 - 1) * (C * |s|) ≤ 17 / 2 ^ 53 * (C * (41 / 10 * V)) := by
    refine mul_le_mul ?_ (mul_le_mul_of_nonneg_left hs' hC.le) (mul_nonneg hC.le (abs_nonneg _)) (by norm_num)
    norm_num at hup ⊢; linarith
  have n3 : |C * s - C * (r - 2 * c + l)| ≤ C * (10 / 2 ^ 53 * V) := by
    rw [← mul_sub, abs_mul, abs_of_pos hC]
    exact mul_le_mul_of_nonneg_left hs hC.le
  have := abs_sub_le (fl (fl (fl (k * dt') * s) * inv')) (C * s) (C * (r - 2 * c + l))
  have hCV : 0 ≤ C * V := mul_nonneg hC.le hV
  norm_num at *
  linarith

/-- A step as computed, on the torus; `fX` and `fY` are what is added. -/
def roundedHeatStep (fl : Rat → Rat) (fX fY : Rat → Rat → Rat → Rat) (nx ny : Nat) (u : Nat → Nat → Rat) (i j : Nat) : Rat :=
  fl (fl (u i j + fX (u ((i + 1) % nx) j) (u i j) (u ((i + nx - 1) % nx) j))
    + fY (u i ((j + 1) % ny)) (u i j) (u i ((j + ny - 1) % ny)))

theorem rounded_torus {fX fY : Rat → Rat → Rat → Rat} {nx ny : Nat}
    {u U : Nat → Nat → Rat} (h : ∀ i j, i < nx → j < ny → u (i + 1) (j + 1) = U i j) (n : Nat) (i j : Nat) (hi : i < nx) (hj : j < ny) :
    (Heat.step (RoundedHeat.add fl) (fun _ => fX) (fun _ => fY) nx ny)^[n] u (i + 1) (j + 1) =
      (roundedHeatStep fl fX fY nx ny)^[n] U i j := by
  induction n generalizing u U i j with
  | zero => exact h i j hi hj
  | succ n ih =>
    refine ih ?_ i j hi hj
    intro i j hi hj
    have m1 : ∀ k, k % nx < nx := fun k => Nat.mod_lt _ (by omega)
    have m2 : ∀ k, k % ny < ny := fun k => Nat.mod_lt _ (by omega)
    rw [Heat.step, roundedHeatStep, RoundedHeat.add, RoundedHeat.add, wrap_succ hi, wrap_pred hi, wrap_succ hj, wrap_pred hj,
      h _ _ hi hj, h _ _ (m1 _) hj, h _ _ (m1 _) hj, h _ _ hi (m2 _), h _ _ hi (m2 _)]

/-- The increments are those of the scheme with coefficients `cx` and `cy`, up to rounding. -/
structure IncNear (fX fY : Rat → Rat → Rat → Rat) (cx cy : Rat) : Prop where
  x0 : 0 ≤ cx
  y0 : 0 ≤ cy
  sum : 2 * cx + 2 * cy ≤ 1 + 61 / 2 ^ 53
  x : ∀ r c l V, |r| ≤ V → |c| ≤ V → |l| ≤ V → |fX r c l - cx * (r - 2 * c + l)| ≤ 80 / 2 ^ 53 * cx * V
  y : ∀ r c l V, |r| ≤ V → |c| ≤ V → |l| ≤ V → |fY r c l - cy * (r - 2 * c + l)| ≤ 80 / 2 ^ 53 * cy * V

section

variable {fX fY : Rat → Rat → Rat → Rat} {cx cy : Rat} {nx ny : Nat}

theorem second_abs {r c l V cc : Rat} (h0 : 0 ≤ cc) (hr : |r| ≤ V) (hc : |c| ≤ V) (hl : |l| ≤ V) :
    |cc * (r - 2 * c + l)| ≤ 4 * (cc * V) := by
  have : |r - 2 * c + l| ≤ 4 * V := by
    rw [abs_le] at *; constructor <;> linarith [hr.1, hr.2, hc.1, hc.2, hl.1, hl.2]
  rw [abs_mul, abs_of_nonneg h0]
  linarith [mul_le_mul_of_nonneg_left this h0]

/-- A step as computed is a step of the scheme, up to rounding. -/
theorem step_error (hfl : RoundsAll fl) (h : IncNear fX fY cx cy) {u : Nat → Nat → Rat} {V : Rat}
    (hu : ∀ i j, i < nx → j < ny → |u i j| ≤ V) {i j : Nat} (hi : i < nx) (hj : j < ny) :
    |roundedHeatStep fl fX fY nx ny u i j - heatStep cx cy nx ny u i j| ≤ 60 / 2 ^ 53 * V := by
  have m1 : ∀ k, k % nx < nx := fun k => Nat.mod_lt _ (by omega)
  have m2 : ∀ k, k % ny < ny := fun k => Nat.mod_lt _ (by omega)
  have a1 := hu i j hi hj
  have a2 := hu _ j (m1 (i + 1)) hj
  have a3 := hu _ j (m1 (i + nx - 1)) hj
  have a4 := hu i _ hi (m2 (j + 1))
  have a5 := hu i _ hi (m2 (j + ny - 1))
  rw [roundedHeatStep, heatStep]
  generalize u i j = c at *
  generalize u ((i + 1) % nx) j = r at *
  generalize u ((i + nx - 1) % nx) j = l at *
  generalize u i ((j + 1) % ny) = t at *
  generalize u i ((j + ny - 1) % ny) = b at *
  have hV : 0 ≤ V := (abs_nonneg _).trans a1
  have dx := h.x r c l V a2 a1 a3
  have dy := h.y t c b V a4 a1 a5
  have sx := second_abs h.x0 a2 a1 a3
  have sy := second_abs h.y0 a4 a1 a5
  have hsum := mul_le_mul_of_nonneg_right h.sum hV
  have x0 := mul_nonneg h.x0 hV
  have y0 := mul_nonneg h.y0 hV
  rw [mul_assoc] at dx dy
  have e1 := hfl.error (c + fX r c l)
  have e2 := hfl.error (fl (c + fX r c l) + fY t c b)
  generalize fX r c l = p at *
  generalize fY t c b = q at *
  generalize cx * (r - 2 * c + l) = P at *
  generalize cy * (t - 2 * c + b) = Q at *
  set o1 := fl (c + p)
  set o2 := fl (o1 + q)
  have hs : 2 * (cx * V) + 2 * (cy * V) ≤ (1 + 61 / 2 ^ 53) * V := by linarith
  generalize cx * V = X at *
  generalize cy * V = Y at *
  have g1 : |c + p| ≤ 31 / 10 * V := by
    rw [abs_le] at *; norm_num at *; constructor <;> linarith [a1.1, a1.2, dx.1, dx.2, sx.1, sx.2]
  have f1 : |o1 - (c + p)| ≤ 31 / 10 * V / 2 ^ 53 := e1.trans (by gcongr)
  have g2 : |o1 + q| ≤ 31 / 10 * V := by
    rw [abs_le] at *; norm_num at *; constructor <;> linarith [a1.1, a1.2, dx.1, dx.2, sx.1, sx.2, dy.1, dy.2, sy.1, sy.2, f1.1, f1.2]
  have f2 : |o2 - (o1 + q)| ≤ 31 / 10 * V / 2 ^ 53 := e2.trans (by gcongr)
  rw [abs_le] at *; norm_num at *
  constructor <;> linarith [dx.1, dx.2, dy.1, dy.2, f1.1, f1.2, f2.1, f2.2]

/-- A step of the scheme whose coefficients add up to a little more than 1. -/
theorem heatStep_almost (h : IncNear fX fY cx cy) {u : Nat → Nat → Rat} {m M : Rat}
    (hu : ∀ i j, i < nx → j < ny → m ≤ u i j ∧ u i j ≤ M) {i j : Nat} (hi : i < nx) (hj : j < ny) :
    m - 61 / 2 ^ 53 * (M - m) ≤ heatStep cx cy nx ny u i j ∧ heatStep cx cy nx ny u i j ≤ M + 61 / 2 ^ 53 * (M - m) := by
  have hmM : m ≤ M := (hu i j hi hj).1.trans (hu i j hi hj).2
  rcases le_total (2 * cx + 2 * cy) 1 with hs | hs
  · obtain ⟨k1, k2⟩ := heatStep_between h.x0 h.y0 hs hu hi hj
    have : 0 ≤ 61 / 2 ^ 53 * (M - m) := mul_nonneg (by norm_num) (by linarith)
    constructor <;> linarith
  · have m1 : ∀ k, k % nx < nx := fun k => Nat.mod_lt _ (by omega)
    have m2 : ∀ k, k % ny < ny := fun k => Nat.mod_lt _ (by omega)
    have a1 := hu i j hi hj
    have a2 := hu _ j (m1 (i + 1)) hj
    have a3 := hu _ j (m1 (i + nx - 1)) hj
    have a4 := hu i _ hi (m2 (j + 1))
    have a5 := hu i _ hi (m2 (j + ny - 1))
    have e : heatStep cx cy nx ny u i j = (1 - 2 * cx - 2 * cy) * u i j + cx * u ((i + 1) % nx) j + cx * u ((i + nx - 1) % nx) j
        + cy * u i ((j + 1) % ny) + cy * u i ((j + ny - 1) % ny) := by rw [heatStep]; ring
    have hd : 0 ≤ 2 * cx + 2 * cy - 1 := by linarith
    have hd' : (2 * cx + 2 * cy - 1) * (M - m) ≤ 61 / 2 ^ 53 * (M - m) :=
      mul_le_mul_of_nonneg_right (by linarith [h.sum]) (by linarith)
    constructor
    · have b1 := mul_le_mul_of_nonneg_left a1.2 hd
      have b2 := mul_le_mul_of_nonneg_left a2.1 h.x0
      have b3 := mul_le_mul_of_nonneg_left a3.1 h.x0
      have b4 := mul_le_mul_of_nonneg_left a4.1 h.y0
      have b5 := mul_le_mul_of_nonneg_left a5.1 h.y0
      linarith
    · have b1 := mul_le_mul_of_nonneg_left a1.1 hd
      have b2 := mul_le_mul_of_nonneg_left a2.2 h.x0
      have b3 := mul_le_mul_of_nonneg_left a3.2 h.x0
      have b4 := mul_le_mul_of_nonneg_left a4.2 h.y0
      have b5 := mul_le_mul_of_nonneg_left a5.2 h.y0
      linarith

theorem heatTol_nonneg (n : Nat) : 0 ≤ heatTol n := by
  rw [heatTol]; linarith [one_le_pow₀ (M₀ := Rat) (n := n) (by norm_num : (1 : Rat) ≤ 1 + 1 / 2 ^ 45)]

theorem heatTol_succ (n : Nat) : heatTol (n + 1) = heatTol n + 1 / 2 ^ 45 * (1 + heatTol n) := by
  rw [heatTol, heatTol, pow_succ]; ring

/-- The temperatures stay between the bounds, up to rounding. -/
theorem rounded_between (hfl : RoundsAll fl) (h : IncNear fX fY cx cy) {u : Nat → Nat → Rat} {cold hot V : Rat}
    (hV : |cold| ≤ V) (hV' : |hot| ≤ V) (hu : ∀ i j, i < nx → j < ny → cold ≤ u i j ∧ u i j ≤ hot) (n : Nat) :
    ∀ i j, i < nx → j < ny → cold - heatTol n * V ≤ (roundedHeatStep fl fX fY nx ny)^[n] u i j ∧
      (roundedHeatStep fl fX fY nx ny)^[n] u i j ≤ hot + heatTol n * V := by
  have V0 : 0 ≤ V := (abs_nonneg _).trans hV
  induction n with
  | zero => intro i j hi hj; simpa [heatTol] using hu i j hi hj
  | succ n ih =>
    intro i j hi hj
    rw [Function.iterate_succ_apply']
    have t0 := mul_nonneg (heatTol_nonneg n) V0
    have hb : ∀ i j, i < nx → j < ny → |(roundedHeatStep fl fX fY nx ny)^[n] u i j| ≤ V + heatTol n * V := by
      intro i j hi hj
      have := ih i j hi hj
      rw [abs_le] at *
      constructor <;> linarith [hV.1, hV'.2]
    have k1 := abs_le.1 (step_error hfl h hb hi hj)
    have k2 := heatStep_almost h ih hi hj
    have e : heatTol (n + 1) * V = heatTol n * V + 1 / 2 ^ 45 * (V + heatTol n * V) := by rw [heatTol_succ]; ring
    rw [e]
    generalize heatTol n * V = t at *
    rw [abs_le] at hV hV'
    norm_num at *
    constructor <;> linarith [k1.1, k1.2, k2.1, k2.2]

theorem heatStep_sub (cx cy : Rat) (nx ny : Nat) (u w : Nat → Nat → Rat) (i j : Nat) :
    heatStep cx cy nx ny u i j - heatStep cx cy nx ny w i j = heatStep cx cy nx ny (fun i j => u i j - w i j) i j := by
  simp only [heatStep]; ring

/-- The temperatures are those of the scheme, up to rounding. -/
theorem rounded_near (hfl : RoundsAll fl) (h : IncNear fX fY cx cy) {u : Nat → Nat → Rat} {V : Rat}
    (hu : ∀ i j, i < nx → j < ny → |u i j| ≤ V) (n : Nat) : ∀ i j, i < nx → j < ny →
      |(roundedHeatStep fl fX fY nx ny)^[n] u i j - (heatStep cx cy nx ny)^[n] u i j| ≤ heatTol n * V := by
  induction n with
  | zero => intro i j hi hj; simp [heatTol]
  | succ n ih =>
    intro i j hi hj
    have V0 : 0 ≤ V := (abs_nonneg _).trans (hu i j hi hj)
    have aV : |V| ≤ V := by rw [abs_of_nonneg V0]
    have hb := rounded_between hfl h (cold := -V) (hot := V) (by rw [abs_neg]; exact aV) aV
      (fun i j hi hj => abs_le.1 (hu i j hi hj)) n
    rw [Function.iterate_succ_apply', Function.iterate_succ_apply']
    have hb' : ∀ i j, i < nx → j < ny → |(roundedHeatStep fl fX fY nx ny)^[n] u i j| ≤ V + heatTol n * V := by
      intro i j hi hj
      have := hb i j hi hj
      rw [abs_le]
      constructor <;> linarith
    have k1 := abs_le.1 (step_error hfl h hb' hi hj)
    have k2 := heatStep_almost h (fun i j hi hj => abs_le.1 (ih i j hi hj)) hi hj
    rw [← heatStep_sub] at k2
    have t0 := mul_nonneg (heatTol_nonneg n) V0
    have e : heatTol (n + 1) * V = heatTol n * V + 1 / 2 ^ 45 * (V + heatTol n * V) := by rw [heatTol_succ]; ring
    rw [e]
    generalize heatTol n * V = t at *
    rw [abs_le]
    norm_num at *
    constructor <;> linarith [k1.1, k1.2, k2.1, k2.2]

end

/-! ## The set-up -/

theorem near_gap (hfl : RoundsAll fl) (a b : Rat) (m : Nat) : Near 2 (fl (fl (b - a) / m)) ((b - a) / m) := by
  rw [div_eq_mul_inv, div_eq_mul_inv]
  exact (((Near.refl (b - a)).fl hfl).mul (Near.refl _)).fl hfl

theorem near_invSquare (hfl : RoundsAll fl) {d d' : Rat} (hd : 0 < d) (h : Near 2 d' d) :
    Near 11 (invSquare fl d') (1 / (d * d)) := by
  rw [invSquare]
  exact (((h.mul h).fl hfl).inv (by norm_num) (mul_pos hd hd)).fl hfl

theorem near_stableDt (hfl : RoundsAll fl) {kx ky qx qy qx' qy' : Rat} (hkx : 0 < kx) (hky : 0 < ky) (hqx : 0 < qx) (hqy : 0 < qy)
    (h1 : Near 11 qx' qx) (h2 : Near 11 qy' qy) : Near 27 (stableDt fl kx qx' ky qy') (1 / 2 / (kx * qx + ky * qy)) := by
  have hx := mul_pos hkx hqx
  have hy := mul_pos hky hqy
  have n1 : Near 12 (fl (kx * qx')) (kx * qx) := (((Near.refl kx).mul h1).mono (by norm_num)).fl hfl
  have n2 : Near 12 (fl (ky * qy')) (ky * qy) := (((Near.refl ky).mul h2).mono (by norm_num)).fl hfl
  have n3 := (n1.add n2 (by rw [abs_of_pos hx, abs_of_pos hy, abs_of_pos (by linarith)])).fl hfl
  have n4 := ((Near.refl (1 / 2)).mul (n3.inv (by norm_num) (by linarith))).fl hfl
  rw [stableDt, ← mul_one_div, ← mul_one_div (1 / 2 : Rat) (kx * qx + ky * qy)]
  exact n4.mono (by norm_num)

theorem rounded_ghosted1 (hfl : RoundsAll fl) (t : Dim) {a b : Rat} (hab : a < b) {n : Nat} (hn : 1 < n) (h : n + 2 ≤ 2 ^ 53)
    {s' : Rat} (hs' : s' = fl (fl (b - a) / ((n - 1 : Nat) : Rat))) :
    uniformInitGhosted1 fl t a b [(t, BitVec.ofNat 64 n)] [(t, 1)] =
      .ok (⟨fl (a - fl (((1 : Nat) : Rat) * s')), s', el t 0⟩, seg t 1 (n + 1), seg t 0 (n + 2), seg t 0 1,
        seg t (n + 1) (n + 2)) := by
  obtain ⟨hs0, -⟩ := flStep_error hfl hab (show 0 < n - 1 by omega)
  rw [← hs'] at hs0
  obtain ⟨d1, d2, d3, d4, d5, d6⟩ := ghost_domains t 1 n 1 (by omega)
  have h1 : decide (1 < ((n : Nat) : Int)) = true := by simpa using hn
  have h2 := samplingStep_ok hfl t a b hn (by omega)
  rw [vec, ← hs'] at h2
  have h3 := mkUniform_ok t (fl (a - fl (((1 : Nat) : Rat) * s'))) hs0
  have e1 : (1 : I64) = BitVec.ofNat 64 1 := rfl
  rw [uniformInitGhosted1, uniformInitGhosted, e1]
  simp only [hab, decide_true, Res.guardAbort_true, Vect.value,
    One.toInt_ofNat (show n < 2 ^ 63 by omega), One.toInt_ofNat (show 1 < 2 ^ 63 by omega), h1, Res.ok_bind, h2,
    Int.cast_natCast, fl_nat hfl (show 1 ≤ 2 ^ 53 by omega), h3]
  simp only [vec] at d1 d2 d3 d4 d5 d6
  rw [d1, Res.ok_bind, d2, Res.ok_bind, d3, Res.ok_bind, d4, Res.ok_bind, d5, Res.ok_bind, d6]
  simp only [Res.ok_bind, Res.pure_eq, show n + 1 + 1 = n + 2 by omega, show 1 + n = n + 1 by omega]

theorem points_near (hfl : RoundsAll fl) {a b : Rat} (hab : a < b) {n : Nat} (hn : 2 ≤ n) {s' : Rat}
    (hs' : s' = fl (fl (b - a) / ((n - 1 : Nat) : Rat))) :
    PointsNear a b n (fun i => flPoint fl (fl (a - fl (((1 : Nat) : Rat) * s'))) s' ((i + 1 : Nat) : Int)) := by
  obtain ⟨hs0, hse⟩ := flStep_error hfl hab (show 0 < n - 1 by omega)
  rw [← hs', ← gap_eq hn] at hse
  rw [← hs'] at hs0
  have hg := gap_pos hab hn
  have hgn : ((n - 1 : Nat) : Rat) * gap a b n = b - a := by
    have : (0 : Rat) < ((n - 1 : Nat) : Rat) := by exact_mod_cast (by omega : 0 < n - 1)
    rw [gap_eq hn]; exact mul_div_cancel₀ _ this.ne'
  have hle : ∀ k, k ≤ n + 2 → (k : Rat) * gap a b n ≤ (n + 2 : Nat) * gap a b n :=
    fun k hk => mul_le_mul_of_nonneg_right (by exact_mod_cast hk) hg.le
  refine ⟨fun i j hij => flPoint_mono hfl hs0.le (by exact_mod_cast (by omega : i + 1 ≤ j + 1)), fun i hi => ?_⟩
  have ha := abs_nonneg a
  have hb := abs_nonneg b
  have ha1 := abs_le.1 (le_refl |a|)
  have hb1 := abs_le.1 (le_refl |b|)
  have hi' : (i : Rat) * gap a b n ≤ b - a := by
    rw [← hgn]; exact mul_le_mul_of_nonneg_right (by exact_mod_cast (by omega : i ≤ n - 1)) hg.le
  have hi0 : 0 ≤ (i : Rat) * gap a b n := mul_nonneg (Nat.cast_nonneg i) hg.le
  have := ghost_error hfl (g := 1) (k := i + 1) (a := a) (M := |a| + |b| + gap a b n) hg hse (hle 1 (by omega))
    (hle (i + 1) (by omega)) (by rw [abs_le]; push_cast; constructor <;> linarith)
    (by rw [abs_le]; push_cast; constructor <;> linarith)
  have e : a + (((i + 1 : Nat) : Rat) - (1 : Nat)) * gap a b n = a + i * gap a b n := by push_cast; ring
  rwa [e] at this

/-! ## The program -/

section

variable {p : Params Rat} {nx ny : Nat}

theorem RoundedHeatSetting.stable_pos (h : RoundedHeatSetting p nx ny) :
    0 < stableStep p.kx (gap p.xStart p.xEnd nx) p.ky (gap p.yStart p.yEnd ny) := by
  have h1 := gap_pos h.xs h.x2
  have h2 := gap_pos h.ys h.y2
  have h3 := div_pos h.kxp (pow_pos h1 2)
  have h4 := div_pos h.kyp (pow_pos h2 2)
  exact div_pos one_pos (by linarith)

/-- The coefficients, for `N` steps: they add up to `stepRatio / N`. -/
theorem RoundedHeatSetting.coefs (h : RoundedHeatSetting p nx ny) {N : Nat} (hN : 0 < N) :
    0 < coefX p nx N ∧ 0 < coefY p ny N ∧ 2 * coefX p nx N + 2 * coefY p ny N = stepRatio p nx ny / N := by
  have h1 := gap_pos h.xs h.x2
  have h2 := gap_pos h.ys h.y2
  have hN' : (0 : Rat) < N := by exact_mod_cast hN
  have ht := h.ts
  have hdt : 0 < (p.endTime - p.startTime) / (N : Rat) := div_pos (by linarith) hN'
  refine ⟨div_pos (mul_pos h.kxp hdt) (pow_pos h1 2), div_pos (mul_pos h.kyp hdt) (pow_pos h2 2), ?_⟩
  rw [coefX, coefY, stepRatio, stableStep, div_div_eq_mul_div, div_one]
  field_simp

/-- `C83_uniform`, with the cells of the chunk in which the temperatures are. -/
theorem uniform_cells (hfl : RoundsAll fl) (h : RoundedHeatSetting p nx ny) (temp : Rat → Rat → Rat) (junk : Nat → Rat)
    (order : List (List I64)) (ho : order.Perm (Support.policy [BitVec.ofNat 64 nx, BitVec.ofNat 64 ny])) (orders : Nat → Orders)
    (hos : ∀ k, OrdersOk nx ny (orders k)) :
    ∃ mem v, ∃ (N : Nat) (xs ys : Nat → Rat), ∃ u : Nat → Nat → Rat, RoundedHeat.main fl p temp junk order orders = .ok (mem, v) ∧
      0 < N ∧ (1 - 60 / 2 ^ 53) * stepRatio p nx ny ≤ N ∧ (N : Rat) < (1 + 60 / 2 ^ 53) * stepRatio p nx ny + 1 ∧
      PointsNear p.xStart p.xEnd nx xs ∧ PointsNear p.yStart p.yEnd ny ys ∧
      (∀ i j, i < nx → j < ny →
        View.get mem v [[(Dim.x, BitVec.ofNat 64 (i + 1))], [(Dim.y, BitVec.ofNat 64 (j + 1))]] = .ok (u i j)) ∧
      (∀ V, (∀ i j, i < nx → j < ny → |temp (xs i) (ys j)| ≤ V) → ∀ i j, i < nx → j < ny →
        |u i j - (heatStep (coefX p nx N) (coefY p ny N) nx ny)^[N] (fun i j => temp (xs i) (ys j)) i j| ≤ heatTol N * V) ∧
      (∀ cold hot V, |cold| ≤ V → |hot| ≤ V →
        (∀ i j, i < nx → j < ny → cold ≤ temp (xs i) (ys j) ∧ temp (xs i) (ys j) ≤ hot) → ∀ i j, i < nx → j < ny →
          cold - heatTol N * V ≤ u i j ∧ u i j ≤ hot + heatTol N * V) ∧
      (∃ pos, Heat.Grid nx ny v.span.md.cells pos v.span ∧ Heat.Holds nx ny pos mem v.buf (fun i j => u (i - 1) (j - 1))) ∧
      ∀ i j, i < nx → j < ny → ∃ q, u i j = fl q := by
  have hx := h.x2; have hy := h.y2; have hxb := h.xb; have hyb := h.yb
  have g1 := gap_pos h.xs h.x2
  have g2 := gap_pos h.ys h.y2
  have ht : 0 < p.endTime - p.startTime := sub_pos.2 h.ts
  obtain ⟨dx, hdx⟩ : ∃ dx, dx = fl (fl (p.xEnd - p.xStart) / ((nx - 1 : Nat) : Rat)) := ⟨_, rfl⟩
  obtain ⟨dy, hdy⟩ : ∃ dy, dy = fl (fl (p.yEnd - p.yStart) / ((ny - 1 : Nat) : Rat)) := ⟨_, rfl⟩
  have ndx : Near 2 dx (gap p.xStart p.xEnd nx) := by rw [hdx, gap_eq hx]; exact near_gap hfl _ _ _
  have ndy : Near 2 dy (gap p.yStart p.yEnd ny) := by rw [hdy, gap_eq hy]; exact near_gap hfl _ _ _
  have nqx := near_invSquare hfl g1 ndx
  have nqy := near_invSquare hfl g2 ndy
  have q1 : 0 < 1 / (gap p.xStart p.xEnd nx * gap p.xStart p.xEnd nx) := by positivity
  have q2 : 0 < 1 / (gap p.yStart p.yEnd ny * gap p.yStart p.yEnd ny) := by positivity
  have es : stableStep p.kx (gap p.xStart p.xEnd nx) p.ky (gap p.yStart p.yEnd ny) =
      1 / 2 / (p.kx * (1 / (gap p.xStart p.xEnd nx * gap p.xStart p.xEnd nx)) +
        p.ky * (1 / (gap p.yStart p.yEnd ny * gap p.yStart p.yEnd ny))) := by
    rw [stableStep, div_div, mul_one_div, mul_one_div, pow_two, pow_two]
  have nst := near_stableDt hfl h.kxp h.kyp q1 q2 nqx nqy
  rw [← es] at nst
  have hst := h.stable_pos
  obtain ⟨R', hR'⟩ : ∃ R', R' = fl (fl (p.endTime - p.startTime) /
    stableDt fl p.kx (invSquare fl dx) p.ky (invSquare fl dy)) := ⟨_, rfl⟩
  have nR : Near 56 R' (stepRatio p nx ny) := by
    rw [hR', stepRatio, div_eq_mul_one_div, div_eq_mul_one_div (p.endTime - p.startTime)]
    exact ((((Near.refl _).fl hfl).mul (nst.inv (by norm_num) hst)).fl hfl).mono (by norm_num)
  have hR0 : 0 < stepRatio p nx ny := div_pos ht hst
  have hRb : stepRatio p nx ny ≤ 2 ^ 49 := by rw [stepRatio, div_le_iff₀ hst]; exact h.steps
  have hR'0 := nR.pos (by norm_num) hR0
  have hR'1 : |R' - stepRatio p nx ny| ≤ 60 / 2 ^ 53 * stepRatio p nx ny := by
    refine (show |R' - stepRatio p nx ny| ≤ _ from nR).trans ?_
    rw [abs_of_pos hR0]
    refine mul_le_mul_of_nonneg_right ?_ hR0.le
    have := up_le 56 (by norm_num)
    norm_num at this ⊢
    linarith
  rw [abs_le] at hR'1
  obtain ⟨N, hN⟩ : ∃ N : Nat, ⌈R'⌉ = (N : Int) := ⟨⌈R'⌉.toNat, (Int.toNat_of_nonneg (Int.ceil_nonneg hR'0.le)).symm⟩
  have hN0 : 0 < N := by
    have := Int.ceil_pos.2 hR'0
    omega
  have hN1 : R' ≤ N := by
    have := Int.le_ceil R'
    rwa [hN, Int.cast_natCast] at this
  have hN2 : (N : Rat) < R' + 1 := by
    have := Int.ceil_lt_add_one R'
    rwa [hN, Int.cast_natCast] at this
  have hNb : N < 2 ^ 50 := by
    have : (N : Rat) < 2 ^ 50 := lt_of_lt_of_le hN2 (by norm_num at hR'1 hRb ⊢; linarith [hR'1.2])
    exact_mod_cast this
  have hN' : (0 : Rat) < N := by exact_mod_cast hN0
  obtain ⟨c1, c2, c3⟩ := h.coefs hN0
  obtain ⟨dt, hdt⟩ : ∃ dt, dt = fl (fl (p.endTime - p.startTime) / (N : Rat)) := ⟨_, rfl⟩
  have ndt : Near 2 dt ((p.endTime - p.startTime) / N) := by rw [hdt]; exact near_gap hfl _ _ _
  have hdt0 : 0 < (p.endTime - p.startTime) / (N : Rat) := div_pos ht hN'
  have inc : IncNear (incOf fl p.kx dt (invSquare fl dx)) (incOf fl p.ky dt (invSquare fl dy)) (coefX p nx N) (coefY p ny N) := by
    refine ⟨c1.le, c2.le, ?_, fun r c l V hr hc hl => ?_, fun r c l V hr hc hl => ?_⟩
    · rw [c3, div_le_iff₀ hN']
      norm_num at hR'1 ⊢
      linarith [hR'1.1]
    · have := inc_error hfl h.kxp hdt0 q1 ndt nqx hr hc hl
      have e : p.kx * ((p.endTime - p.startTime) / N) * (1 / (gap p.xStart p.xEnd nx * gap p.xStart p.xEnd nx)) =
        coefX p nx N := by rw [coefX, mul_one_div, pow_two]
      rwa [e] at this
    · have := inc_error hfl h.kyp hdt0 q2 ndt nqy hr hc hl
      have e : p.ky * ((p.endTime - p.startTime) / N) * (1 / (gap p.yStart p.yEnd ny * gap p.yStart p.yEnd ny)) =
        coefY p ny N := by rw [coefY, mul_one_div, pow_two]
      rwa [e] at this
  -- the program
  have i1 := rounded_ghosted1 hfl Dim.x h.xs (by omega) hxb hdx
  have i2 := rounded_ghosted1 hfl Dim.y h.ys (by omega) hyb hdy
  have i3 := rounded_init hfl Dim.t h.ts (n := N + 1) (by omega) (by omega)
  rw [show N + 1 - 1 = N by omega, fl_nat hfl (show N ≤ 2 ^ 53 by omega), ← hdt] at i3
  have px := points_near hfl h.xs hx hdx
  have py := points_near hfl h.ys hy hdy
  obtain ⟨ox, hox⟩ : ∃ ox, ox = fl (p.xStart - fl (((1 : Nat) : Rat) * dx)) := ⟨_, rfl⟩
  obtain ⟨oy, hoy⟩ : ∃ oy, oy = fl (p.yStart - fl (((1 : Nat) : Rat) * dy)) := ⟨_, rfl⟩
  rw [← hox] at i1 px
  rw [← hoy] at i2 py
  obtain ⟨mem, last, next, s, pos, C, a1, G, a3, a4, a5, a6, a7, a8⟩ := allocate_ok (nx := nx) (ny := ny) (by omega) (by omega)
    (by omega) (by omega) h.cells (xOf := uniformCoordinate fl (⟨ox, dx, el Dim.x 0⟩ : Uniform Dim Rat))
    (yOf := uniformCoordinate fl (⟨oy, dy, el Dim.y 0⟩ : Uniform Dim Rat))
    (xs := fun i => flPoint fl ox dx (i : Int)) (ys := fun j => flPoint fl oy dy (j : Int))
    (fun i _ h => uniformCoordinate_ok hfl Dim.x ox dx (by omega)) (fun j _ h => uniformCoordinate_ok hfl Dim.y oy dy (by omega))
    temp junk ho
  obtain ⟨mem', v, b1, b2, b3⟩ := timeLoop_ok (add := RoundedHeat.add fl) (incX := RoundedHeat.inc fl p.kx dt (invSquare fl dx))
    (incY := RoundedHeat.inc fl p.ky dt (invSquare fl dy)) (dX := fun _ => incOf fl p.kx dt (invSquare fl dx))
    (dY := fun _ => incOf fl p.ky dt (invSquare fl dy)) G (fun _ _ _ _ _ _ => rfl) (fun _ _ _ _ _ _ => rfl)
    hos N 0 a3 a4 a5 a6 a7 a8
  refine ⟨mem', v, N, _, _, _, ?_, hN0, by linarith [hR'1.1], by linarith [hR'1.2], px, py, ?_,
    fun V hV => rounded_near hfl inc hV N, fun cold hot V h1 h2 h3 => rounded_between hfl inc h1 h2 h3 N, ⟨pos, ?_, ?_⟩, ?_⟩
  · obtain ⟨t1, t2⟩ := time_ok N (by omega)
    have hadd : Vect.addInt [(Dim.t, BitVec.ofNat 64 N)] 1 = .ok [(Dim.t, BitVec.ofNat 64 (N + 1))] := by
      have : (1 : I64) = BitVec.ofNat 64 1 := rfl
      rw [Vect.addInt, this, One.sAdd_nat (by omega)]; rfl
    have hMn : (BitVec.ofNat 64 N).toNat = N := by rw [BitVec.toNat_ofNat]; omega
    rw [RoundedHeat.main, h.enx, h.eny, i1, Res.ok_bind]
    simp only [axis_ok, Res.ok_bind, i2, ← hR', rounded_ceilCast hfl hN hNb, hadd, i3, a1, t1, t2, hMn, b1]
  · intro i j hi hj
    refine Heat.get_ok (by rw [b2]; exact G.chart) (by omega) (by omega) (by omega) (by omega) ?_
    rw [b3 (i + 1) (j + 1) (by omega) (by omega) (by omega) (by omega)]
    congr 1
    exact rounded_torus (fun i j _ _ => rfl) N i j hi hj
  · rw [b2, G.cells]; exact G
  · intro i j h1 h2 h3 h4
    obtain ⟨i, rfl⟩ : ∃ k, i = k + 1 := ⟨i - 1, by omega⟩
    obtain ⟨j, rfl⟩ : ∃ k, j = k + 1 := ⟨j - 1, by omega⟩
    rw [b3 (i + 1) (j + 1) (by omega) (by omega) (by omega) (by omega)]
    congr 1
    exact rounded_torus (fun i j _ _ => rfl) N i j (by omega) (by omega)
  · intro i j _ _
    obtain ⟨n, rfl⟩ : ∃ n, N = n + 1 := ⟨N - 1, by omega⟩
    rw [Function.iterate_succ_apply']
    exact ⟨_, rfl⟩

/-- `main` ends, whatever the rounding, the order of the iterations of its kernels and that of the assignments of its copies,
without reading or writing outside of its chunks or through an assertion.  The number `N` of steps is that of exact arithmetic up
to rounding; the temperatures are those of `N` steps of the scheme on the torus that cover the time interval exactly, up to
rounding errors relative to the largest initial temperature `V`; and they are between the lowest and the highest initial one,
with the same tolerance. -/
theorem C83_uniform (hfl : RoundsAll fl) (h : RoundedHeatSetting p nx ny) (temp : Rat → Rat → Rat) (junk : Nat → Rat)
    (order : List (List I64)) (ho : order.Perm (Support.policy [BitVec.ofNat 64 nx, BitVec.ofNat 64 ny])) (orders : Nat → Orders)
    (hos : ∀ k, OrdersOk nx ny (orders k)) :
    ∃ mem v, ∃ (N : Nat) (xs ys : Nat → Rat), ∃ u : Nat → Nat → Rat, RoundedHeat.main fl p temp junk order orders = .ok (mem, v) ∧
      0 < N ∧ (1 - 60 / 2 ^ 53) * stepRatio p nx ny ≤ N ∧ (N : Rat) < (1 + 60 / 2 ^ 53) * stepRatio p nx ny + 1 ∧
      PointsNear p.xStart p.xEnd nx xs ∧ PointsNear p.yStart p.yEnd ny ys ∧
      (∀ i j, i < nx → j < ny →
        View.get mem v [[(Dim.x, BitVec.ofNat 64 (i + 1))], [(Dim.y, BitVec.ofNat 64 (j + 1))]] = .ok (u i j)) ∧
      (∀ V, (∀ i j, i < nx → j < ny → |temp (xs i) (ys j)| ≤ V) → ∀ i j, i < nx → j < ny →
        |u i j - (heatStep (coefX p nx N) (coefY p ny N) nx ny)^[N] (fun i j => temp (xs i) (ys j)) i j| ≤ heatTol N * V) ∧
      ∀ cold hot V, |cold| ≤ V → |hot| ≤ V →
        (∀ i j, i < nx → j < ny → cold ≤ temp (xs i) (ys j) ∧ temp (xs i) (ys j) ≤ hot) → ∀ i j, i < nx → j < ny →
          cold - heatTol N * V ≤ u i j ∧ u i j ≤ hot + heatTol N * V := by
  obtain ⟨mem, v, N, xs, ys, u, m1, m2, m3, m4, m5, m6, m7, m8, m9, -⟩ := uniform_cells hfl h temp junk order ho orders hos
  exact ⟨mem, v, N, xs, ys, u, m1, m2, m3, m4, m5, m6, m7, m8, m9⟩

open Finset in
/-- The sum of the temperatures at the end is that at the beginning, up to rounding. -/
theorem C83_conservation (hfl : RoundsAll fl) (h : RoundedHeatSetting p nx ny) (temp : Rat → Rat → Rat) (junk : Nat → Rat)
    (order : List (List I64)) (ho : order.Perm (Support.policy [BitVec.ofNat 64 nx, BitVec.ofNat 64 ny])) (orders : Nat → Orders)
    (hos : ∀ k, OrdersOk nx ny (orders k)) :
    ∃ mem v, ∃ (N : Nat) (xs ys : Nat → Rat), ∃ u : Nat → Nat → Rat, RoundedHeat.main fl p temp junk order orders = .ok (mem, v) ∧
      (N : Rat) < (1 + 60 / 2 ^ 53) * stepRatio p nx ny + 1 ∧
      PointsNear p.xStart p.xEnd nx xs ∧ PointsNear p.yStart p.yEnd ny ys ∧
      (∀ i j, i < nx → j < ny →
        View.get mem v [[(Dim.x, BitVec.ofNat 64 (i + 1))], [(Dim.y, BitVec.ofNat 64 (j + 1))]] = .ok (u i j)) ∧
      ∀ V, (∀ i j, i < nx → j < ny → |temp (xs i) (ys j)| ≤ V) →
        |∑ i ∈ range nx, ∑ j ∈ range ny, u i j - ∑ i ∈ range nx, ∑ j ∈ range ny, temp (xs i) (ys j)| ≤
          nx * ny * (heatTol N * V) := by
  obtain ⟨mem, v, N, xs, ys, u, m1, -, -, m3, m4, m5, m6, m7, -⟩ := C83_uniform hfl h temp junk order ho orders hos
  refine ⟨mem, v, N, xs, ys, u, m1, m3, m4, m5, m6, fun V hV => ?_⟩
  have key : ∀ (n : Nat) (w : Nat → Nat → Rat), ∑ i ∈ range nx, ∑ j ∈ range ny,
      (heatStep (coefX p nx N) (coefY p ny N) nx ny)^[n] w i j = ∑ i ∈ range nx, ∑ j ∈ range ny, w i j := by
    intro n
    induction n with
    | zero => intro w; rfl
    | succ n ih => intro w; exact (ih _).trans (heatStep_sum _ _ nx ny w)
  rw [← key N (fun i j => temp (xs i) (ys j)), ← sum_sub_distrib]
  refine (abs_sum_le_sum_abs _ _).trans ?_
  refine (sum_le_sum (g := fun _ => (ny : Rat) * (heatTol N * V)) fun i hi => ?_).trans ?_
  · rw [← sum_sub_distrib]
    refine (abs_sum_le_sum_abs _ _).trans ?_
    refine (sum_le_sum (g := fun _ => heatTol N * V) fun j hj => m7 V hV i j (mem_range.1 hi) (mem_range.1 hj)).trans ?_
    rw [sum_const, card_range, nsmul_eq_mul]
  · rw [sum_const, card_range, nsmul_eq_mul, mul_assoc]

end

/-- The number of steps is that of exact arithmetic unless the number of stable steps in the time interval is an integer up to
rounding. -/
theorem C83_steps {p : Params Rat} {nx ny M N : Nat} (h1 : (1 - 60 / 2 ^ 53) * stepRatio p nx ny ≤ N)
    (h2 : (N : Rat) < (1 + 60 / 2 ^ 53) * stepRatio p nx ny + 1) (h3 : (M : Rat) - 1 < (1 - 60 / 2 ^ 53) * stepRatio p nx ny)
    (h4 : (1 + 60 / 2 ^ 53) * stepRatio p nx ny ≤ M) : N = M := by
  have a : (N : Rat) < M + 1 := by linarith
  have b : (M : Rat) < N + 1 := by linarith
  have a' : N < M + 1 := by exact_mod_cast a
  have b' : M < N + 1 := by exact_mod_cast b
  omega

theorem heatTol_le {N : Nat} (h : N ≤ 2 ^ 20) : heatTol N ≤ 2 * N / 2 ^ 45 := by
  have : ∀ n : Nat, n ≤ 2 ^ 20 → heatTol n ≤ 2 * n / 2 ^ 45 := by
    intro n
    induction n with
    | zero => intro _; simp [heatTol]
    | succ n ih =>
      intro hn
      have k := ih (by omega)
      have hn' : (n : Rat) ≤ 1048576 := by exact_mod_cast (by omega : n ≤ 1048576)
      rw [heatTol_succ]
      push_cast
      norm_num at k ⊢
      linarith
  exact this N h

/-! ## The constants of the program -/

/-- Lines 79-90; `.01` and `.002` are rounded. -/
def programHeat (fl : Rat → Rat) : Params Rat := ⟨-1, 1, 10, fl (1 / 100), -1, 1, 100, fl (1 / 500), 0, 10⟩

theorem programHeat_ratio (hfl : RoundsAll fl) :
    |stepRatio (programHeat fl) 10 100 - 102 - 6 / 100| ≤ 1 / 1000 := by
  have h1 := abs_le.1 (hfl.error (1 / 100))
  have h2 := abs_le.1 (hfl.error (1 / 500))
  rw [abs_of_pos (by norm_num)] at h1 h2
  have e : stepRatio (programHeat fl) 10 100 = 10 * (2 * (fl (1 / 100) * (81 / 4) + fl (1 / 500) * (9801 / 4))) := by
    rw [stepRatio, stableStep, div_div_eq_mul_div, div_one]
    norm_num [programHeat, gap]
    ring
  rw [e, abs_le]
  norm_num at *
  constructor <;> linarith [h1.1, h1.2, h2.1, h2.2]

theorem programHeat_setting (hfl : RoundsAll fl) : RoundedHeatSetting (programHeat fl) 10 100 := by
  have hx : 0 < fl (1 / 100) := fl_pos hfl (by norm_num)
  have hy : 0 < fl (1 / 500) := fl_pos hfl (by norm_num)
  have st : 0 < stableStep (programHeat fl).kx (gap (programHeat fl).xStart (programHeat fl).xEnd 10) (programHeat fl).ky
      (gap (programHeat fl).yStart (programHeat fl).yEnd 100) := by
    rw [stableStep]
    have : (0 : Rat) < gap (programHeat fl).xStart (programHeat fl).xEnd 10 := by norm_num [programHeat, gap]
    have : (0 : Rat) < gap (programHeat fl).yStart (programHeat fl).yEnd 100 := by norm_num [programHeat, gap]
    have : 0 < (programHeat fl).kx := hx
    have : 0 < (programHeat fl).ky := hy
    positivity
  refine ⟨by norm_num [programHeat], by norm_num [programHeat], by norm_num [programHeat], hx, hy, rfl, rfl, by norm_num,
    by norm_num, by norm_num, by norm_num, by norm_num, ?_⟩
  rw [← div_le_iff₀ st]
  have := abs_le.1 (programHeat_ratio hfl)
  rw [stepRatio] at this
  norm_num at this ⊢
  linarith [this.2]

/-- The program as it is, whatever the rounding: 103 steps; the temperatures at the end, which start at 0 or at 9.999, are
between `-10⁻¹⁰` and `9.999 + 10⁻¹⁰`. -/
theorem C83_example (hfl : RoundsAll fl) (temp : Rat → Rat → Rat) (ht : ∀ x y, temp x y = 0 ∨ temp x y = fl (9999 / 1000))
    (junk : Nat → Rat) (order : List (List I64)) (ho : order.Perm (Support.policy [10, 100])) (orders : Nat → Orders)
    (hos : ∀ k, OrdersOk 10 100 (orders k)) :
    ∃ mem v, ∃ (xs ys : Nat → Rat), ∃ u : Nat → Nat → Rat,
      RoundedHeat.main fl (programHeat fl) temp junk order orders = .ok (mem, v) ∧
      PointsNear (-1) 1 10 xs ∧ PointsNear (-1) 1 100 ys ∧ ∀ i j, i < 10 → j < 100 →
        View.get mem v [[(Dim.x, BitVec.ofNat 64 (i + 1))], [(Dim.y, BitVec.ofNat 64 (j + 1))]] = .ok (u i j) ∧
        |u i j - (heatStep (coefX (programHeat fl) 10 103) (coefY (programHeat fl) 100 103) 10 100)^[103]
          (fun i j => temp (xs i) (ys j)) i j| ≤ 1 / 10 ^ 10 ∧
        -(1 / 10 ^ 10) ≤ u i j ∧ u i j ≤ 9999 / 1000 + 1 / 10 ^ 10 := by
  obtain ⟨mem, v, N, xs, ys, u, m1, -, m2, m3, m4, m5, m6, m7, m8⟩ :=
    C83_uniform hfl (programHeat_setting hfl) temp junk order ho orders hos
  have hr := abs_le.1 (programHeat_ratio hfl)
  obtain rfl : N = 103 := C83_steps m2 m3 (by norm_num at *; linarith [hr.1]) (by norm_num at *; linarith [hr.2])
  have h9 := abs_le.1 (hfl.error (9999 / 1000))
  rw [abs_of_pos (by norm_num)] at h9
  have hV : fl (9999 / 1000) ≤ 10 ∧ 0 ≤ fl (9999 / 1000) := by norm_num at *; constructor <;> linarith [h9.1, h9.2]
  have tol : heatTol 103 * 10 ≤ 1 / 10 ^ 10 - 1 / 10 ^ 11 := by
    have := heatTol_le (N := 103) (by norm_num)
    norm_num at this ⊢
    linarith
  have hb : ∀ x y, 0 ≤ temp x y ∧ temp x y ≤ fl (9999 / 1000) := by
    intro x y
    rcases ht x y with e | e <;> rw [e] <;> constructor <;> linarith [hV.2]
  refine ⟨mem, v, xs, ys, u, m1, m4, m5, fun i j hi hj => ⟨m6 i j hi hj, ?_, ?_⟩⟩
  · refine (m7 10 (fun i j _ _ => ?_) i j hi hj).trans (by linarith)
    rw [abs_of_nonneg (hb _ _).1]
    linarith [(hb (xs i) (ys j)).2, hV.1]
  · have := m8 0 (fl (9999 / 1000)) 10 (by norm_num) (by rw [abs_of_nonneg hV.2]; exact hV.1) (fun i j _ _ => hb _ _) i j hi hj
    norm_num at *
    constructor <;> linarith [this.1, this.2, h9.2]

/-! ## What rounding destroys -/

/-- Two by two points on `[0, 3]²`, conductivities 0.7, one time step that is the longest stable one. -/
def tightHeat : Params Rat := ⟨0, 3, 2, round53 (7 / 10), 0, 3, 2, round53 (7 / 10), 0, 7237927972559727 / 2 ^ 51⟩

def tightOrders : Orders :=
  ⟨fun _ => MDSpan.indices [2], fun _ => MDSpan.indices [2], fun _ => MDSpan.indices [2], fun _ => MDSpan.indices [2],
    Support.policy [2, 2]⟩

example : RoundedHeatSetting tightHeat 2 2 ∧ OrdersOk 2 2 tightOrders := by
  refine ⟨⟨by decide +kernel, by decide +kernel, by decide +kernel, by decide +kernel, by decide +kernel, rfl, rfl, by omega,
    by omega, by omega, by omega, by omega, by decide +kernel⟩, ⟨.refl _, .refl _, .refl _, .refl _, .refl _⟩⟩

/-- With rounding to nearest a temperature can exceed the highest initial one: here 3, at the end `3 + 2⁻⁵¹`. -/
theorem C83_overshoot : (do
      let (mem, v) ← RoundedHeat.main round53 tightHeat (fun x y => if x = y then 0 else 3) (fun _ => 0) (Support.policy [2, 2])
        (fun _ => tightOrders)
      View.get mem v [[(Dim.x, 1)], [(Dim.y, 1)]]) = .ok (3 + 1 / 2 ^ 51) := by decide +kernel

/-- Two by two points on `[0, 1]²`, conductivities 1/4: the longest stable step is 1. -/
def unitHeat (endTime : Rat) : Params Rat := ⟨0, 1, 2, 1 / 4, 0, 1, 2, 1 / 4, 0, endTime⟩

def unitRun (endTime : Rat) : Res Rat := do
  let (mem, v) ← RoundedHeat.main round53 (unitHeat endTime) (fun x y => x + y) (fun _ => 0) (Support.policy [2, 2])
    (fun _ => tightOrders)
  View.get mem v [[(Dim.x, 1)], [(Dim.y, 1)]]

/-- The number of steps is converted to `std::ptrdiff_t`: `2⁶³` steps and fewer than `-2⁶³` (a time interval that is reversed) are
undefined, `-2⁶³` steps are left to the assertions. -/
theorem C83_step_count : unitRun (2 ^ 63) = .ub ∧ unitRun (-2 ^ 63 - 2 ^ 11) = .ub ∧ unitRun (-2 ^ 63) = .abort ∧
    unitRun 1 = .ok 1 := by
  refine ⟨?_, ?_, ?_, ?_⟩ <;> decide +kernel

end DDC.Props
