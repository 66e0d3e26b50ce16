import Verif.Model.RoundedHeatSampling
import Verif.Props.C77
import Verif.Props.C83

/-!
# C84 — the heat equation of the examples by distances between points, with rounding
-/

namespace DDC.Props

open Tup Spec Heat Rounded
open One (seg el vec)

set_option linter.unusedSectionVars false

variable {fl : Rat → Rat}

/-! ## One step -/

/-- A step of a scheme on the torus that adds a multiple of a second difference with weights in each dimension. -/
def weightStep (cx wx cy wy : Nat → Rat) (nx ny : Nat) (u : Nat → Nat → Rat) (i j : Nat) : Rat :=
  u i j + cx i * (wx i * u ((i + 1) % nx) j - 2 * u i j + (2 - wx i) * u ((i + nx - 1) % nx) j)
    + cy j * (wy j * u i ((j + 1) % ny) - 2 * u i j + (2 - wy j) * u i ((j + ny - 1) % ny))

theorem heatStep_weight (cx cy : Rat) (nx ny : Nat) :
    heatStep cx cy nx ny = weightStep (fun _ => cx) (fun _ => 1) (fun _ => cy) (fun _ => 1) nx ny := by
  funext u i j
  rw [heatStep, weightStep]
  ring

/-- What is added in a dimension, as computed. -/
theorem dist_inc_error (hfl : RoundsAll fl) {k dt dt' dl dl' dr dr' : Rat} (hk : 0 < k) (hdt : 0 < dt) (hl0 : 0 < dl) (hr0 : 0 < dr)
    (h1 : Near 2 dt' dt) (h2 : Near 2 dl' dl) (h3 : Near 2 dr' dr) {r c l V : Rat} (hr : |r| ≤ V) (hc : |c| ≤ V) (hl : |l| ≤ V) :
    |RoundedHeat.distInc fl k dt' dl' dr' r c l -
      k * dt / (dl * dr) * (2 * dl / (dl + dr) * r - 2 * c + (2 - 2 * dl / (dl + dr)) * l)| ≤
        150 / 2 ^ 53 * (k * dt / (dl * dr)) * V := by
  have hV : 0 ≤ V := (abs_nonneg _).trans hr
  have hD : 0 < dl + dr := by linarith
  obtain ⟨D, eD⟩ : ∃ D, D = dl + dr := ⟨_, rfl⟩
  simp only [RoundedHeat.distInc]
  have nm : Near 4 (fl (1 / 2 * fl (dl' + dr'))) (1 / 2 * (dl + dr)) :=
    ((Near.refl (1 / 2)).mul ((h2.add h3 (by rw [abs_of_pos hl0, abs_of_pos hr0, abs_of_pos hD])).fl hfl)).fl hfl
  obtain ⟨dm, edm⟩ : ∃ dm, dm = fl (1 / 2 * fl (dl' + dr')) := ⟨_, rfl⟩
  rw [← edm] at nm ⊢
  rw [← eD] at hD nm ⊢
  have n1 : Near 3 (fl (dl' * r)) (dl * r) := (h2.mul (Near.refl r)).fl hfl
  have n2 : Near 6 (fl (fl (2 * dm) * c)) (2 * (1 / 2 * D) * c) :=
    ((((Near.refl 2).mul nm).fl hfl).mul (Near.refl c)).fl hfl
  have n3 : Near 3 (fl (dr' * l)) (dr * l) := (h3.mul (Near.refl l)).fl hfl
  have u3 := up_le 3 (by norm_num)
  have u6 := up_le 6 (by norm_num)
  have u25 := up_le 25 (by norm_num)
  have hdlr : |dl * r| ≤ dl * V := by rw [abs_mul, abs_of_pos hl0]; exact mul_le_mul_of_nonneg_left hr hl0.le
  have hDc : |2 * (1 / 2 * D) * c| ≤ D * V := by
    rw [show 2 * (1 / 2 * D) * c = D * c by ring, abs_mul, abs_of_pos hD]; exact mul_le_mul_of_nonneg_left hc hD.le
  have hdrl : |dr * l| ≤ dr * V := by rw [abs_mul, abs_of_pos hr0]; exact mul_le_mul_of_nonneg_left hl hr0.le
  have hlV : 0 ≤ dl * V := mul_nonneg hl0.le hV
  have hrV : 0 ≤ dr * V := mul_nonneg hr0.le hV
  have eDV : D * V = dl * V + dr * V := by rw [eD]; ring
  have f1 : |fl (dl' * r) - dl * r| ≤ 32 / 10 / 2 ^ 53 * (dl * V) :=
    (show _ ≤ _ from n1).trans (mul_le_mul (by norm_num at u3 ⊢; linarith) hdlr (abs_nonneg _) (by norm_num))
  have f2 : |fl (fl (2 * dm) * c) - 2 * (1 / 2 * D) * c| ≤ 64 / 10 / 2 ^ 53 * (D * V) :=
    (show _ ≤ _ from n2).trans (mul_le_mul (by norm_num at u6 ⊢; linarith) hDc (abs_nonneg _) (by norm_num))
  have f3 : |fl (dr' * l) - dr * l| ≤ 32 / 10 / 2 ^ 53 * (dr * V) :=
    (show _ ≤ _ from n3).trans (mul_le_mul (by norm_num at u3 ⊢; linarith) hdrl (abs_nonneg _) (by norm_num))
  obtain ⟨t1, et1⟩ : ∃ t, t = fl (dl' * r) := ⟨_, rfl⟩
  obtain ⟨t2, et2⟩ : ∃ t, t = fl (fl (2 * dm) * c) := ⟨_, rfl⟩
  obtain ⟨t3, et3⟩ : ∃ t, t = fl (dr' * l) := ⟨_, rfl⟩
  rw [← et1] at f1 ⊢
  rw [← et2] at f2 ⊢
  rw [← et3] at f3 ⊢
  have e4 := hfl.error (t1 - t2)
  have e5 := hfl.error (fl (t1 - t2) + t3)
  obtain ⟨A, eA⟩ : ∃ A, A = fl (t1 - t2) := ⟨_, rfl⟩
  rw [← eA] at e4 e5 ⊢
  obtain ⟨S, eS⟩ : ∃ S, S = fl (A + t3) := ⟨_, rfl⟩
  rw [← eS] at e5 ⊢
  obtain ⟨P, eP⟩ : ∃ P, P = dl * r := ⟨_, rfl⟩
  obtain ⟨Q, eQ⟩ : ∃ Q, Q = 2 * (1 / 2 * D) * c := ⟨_, rfl⟩
  obtain ⟨W, eW⟩ : ∃ W, W = dr * l := ⟨_, rfl⟩
  rw [← eP] at f1 hdlr
  rw [← eQ] at f2 hDc
  rw [← eW] at f3 hdrl
  obtain ⟨a1, a2⟩ := abs_le.1 f1
  obtain ⟨b1, b2⟩ := abs_le.1 f2
  obtain ⟨c1, c2⟩ := abs_le.1 f3
  obtain ⟨p1, p2⟩ := abs_le.1 hdlr
  obtain ⟨q1, q2⟩ := abs_le.1 hDc
  obtain ⟨w1, w2⟩ := abs_le.1 hdrl
  have g4 : |t1 - t2| ≤ 21 / 10 * (D * V) := abs_le.2 ⟨by linarith, by linarith⟩
  obtain ⟨i1, i2⟩ := abs_le.1 (e4.trans (by gcongr : |t1 - t2| / 2 ^ 53 ≤ 21 / 10 * (D * V) / 2 ^ 53))
  have g5 : |A + t3| ≤ 21 / 10 * (D * V) := abs_le.2 ⟨by linarith, by linarith⟩
  obtain ⟨j1, j2⟩ := abs_le.1 (e5.trans (by gcongr : |A + t3| / 2 ^ 53 ≤ 21 / 10 * (D * V) / 2 ^ 53))
  have hS : |S - (P - Q + W)| ≤ 14 / 2 ^ 53 * (D * V) := abs_le.2 ⟨by linarith, by linarith⟩
  have hS' : |S| ≤ 205 / 100 * (D * V) := abs_le.2 ⟨by linarith, by linarith⟩
  have nd : Near 10 (fl (fl (dl' * dm) * dr')) (dl * (1 / 2 * D) * dr) := ((((h2.mul nm).fl hfl).mul h3).fl hfl)
  have hd0 : 0 < dl * (1 / 2 * D) * dr := by positivity
  have nn : Near 25 (fl (fl (fl (k * dt') * S) / fl (fl (dl' * dm) * dr'))) (k * dt * S * (1 / (dl * (1 / 2 * D) * dr))) := by
    rw [div_eq_mul_one_div]
    exact (((((((Near.refl k).mul h1).fl hfl).mul (Near.refl S)).fl hfl).mul (nd.inv (by norm_num) hd0)).fl hfl)
  obtain ⟨C, eC⟩ : ∃ C, C = k * dt / (dl * dr) := ⟨_, rfl⟩
  have hC : 0 < C := by rw [eC]; positivity
  have e1 : k * dt * S * (1 / (dl * (1 / 2 * D) * dr)) = 2 * C / D * S := by
    rw [eC]; field_simp
  have e2 : k * dt / (dl * dr) * (2 * dl / D * r - 2 * c + (2 - 2 * dl / D) * l) = 2 * C / D * (P - Q + W) := by
    rw [eC, eP, eQ, eW]
    have hD' : D ≠ 0 := hD.ne'
    have : dr = D - dl := by rw [eD]; ring
    field_simp
    rw [this]
  rw [e2]
  rw [e1, Near] at nn
  rw [← eC]
  have hCD : 0 < 2 * C / D := by positivity
  have eCD : 2 * C / D * (D * V) = 2 * (C * V) := by field_simp
  rw [abs_mul, abs_of_pos hCD] at nn
  have k1 : (up 25 - 1) * (2 * C / D * |S|) ≤ 27 / 2 ^ 53 * (205 / 100 * (2 * (C * V))) := by
    refine mul_le_mul (by norm_num at u25 ⊢; linarith) ?_ (mul_nonneg hCD.le (abs_nonneg _)) (by norm_num)
    calc 2 * C / D * |S| ≤ 2 * C / D * (205 / 100 * (D * V)) := mul_le_mul_of_nonneg_left hS' hCD.le
      _ = _ := by rw [← eCD]; ring
  have k2 : |2 * C / D * S - 2 * C / D * (P - Q + W)| ≤ 14 / 2 ^ 53 * (2 * (C * V)) := by
    rw [← mul_sub, abs_mul, abs_of_pos hCD]
    calc 2 * C / D * |S - (P - Q + W)| ≤ 2 * C / D * (14 / 2 ^ 53 * (D * V)) := mul_le_mul_of_nonneg_left hS hCD.le
      _ = _ := by rw [← eCD]; ring
  have := abs_sub_le (fl (fl (fl (k * dt') * S) / fl (fl (dl' * dm) * dr'))) (2 * C / D * S) (2 * C / D * (P - Q + W))
  have hCV : 0 ≤ C * V := mul_nonneg hC.le hV
  linarith

/-- A step as computed, on the torus; `fX i` and `fY j` are what is added. -/
def roundedMeshStep (fl : Rat → Rat) (fX fY : Nat → Rat → Rat → Rat → Rat) (nx ny : Nat) (u : Nat → Nat → Rat) (i j : Nat) : Rat :=
  fl (fl (u i j + fX i (u ((i + 1) % nx) j) (u i j) (u ((i + nx - 1) % nx) j))
    + fY j (u i ((j + 1) % ny)) (u i j) (u i ((j + ny - 1) % ny)))

theorem rounded_mesh_torus {dX dY fX fY : Nat → Rat → Rat → Rat → Rat} {nx ny : Nat} (hX : ∀ i, i < nx → dX (i + 1) = fX i)
    (hY : ∀ j, j < ny → dY (j + 1) = fY j)
    {u U : Nat → Nat → Rat} (h : ∀ i j, i < nx → j < ny → u (i + 1) (j + 1) = U i j) (n : Nat) (i j : Nat) (hi : i < nx) (hj : j < ny) :
    (Heat.step (RoundedHeat.add fl) dX dY nx ny)^[n] u (i + 1) (j + 1) = (roundedMeshStep fl fX fY nx ny)^[n] U i j := by
  induction n generalizing u U i j with
  | zero => exact h i j hi hj
  | succ n ih =>
    refine ih ?_ i j hi hj
    intro i j hi hj
    have m1 : ∀ k, k % nx < nx := fun k => Nat.mod_lt _ (by omega)
    have m2 : ∀ k, k % ny < ny := fun k => Nat.mod_lt _ (by omega)
    rw [Heat.step, roundedMeshStep, RoundedHeat.add, RoundedHeat.add, hX i hi, hY j hj, wrap_succ hi, wrap_pred hi, wrap_succ hj,
      wrap_pred hj, h _ _ hi hj, h _ _ (m1 _) hj, h _ _ (m1 _) hj, h _ _ hi (m2 _), h _ _ hi (m2 _)]

/-- The increments are those of the scheme, up to rounding. -/
structure WeightNear (fX fY : Nat → Rat → Rat → Rat → Rat) (cx wx cy wy : Nat → Rat) (nx ny : Nat) : Prop where
  x0 : ∀ i, i < nx → 0 ≤ cx i
  y0 : ∀ j, j < ny → 0 ≤ cy j
  hwx : ∀ i, i < nx → 0 ≤ wx i ∧ wx i ≤ 2
  hwy : ∀ j, j < ny → 0 ≤ wy j ∧ wy j ≤ 2
  sum : ∀ i j, i < nx → j < ny → 2 * cx i + 2 * cy j ≤ 1 + 80 / 2 ^ 53
  x : ∀ i, i < nx → ∀ r c l V, |r| ≤ V → |c| ≤ V → |l| ≤ V →
    |fX i r c l - cx i * (wx i * r - 2 * c + (2 - wx i) * l)| ≤ 150 / 2 ^ 53 * cx i * V
  y : ∀ j, j < ny → ∀ r c l V, |r| ≤ V → |c| ≤ V → |l| ≤ V →
    |fY j r c l - cy j * (wy j * r - 2 * c + (2 - wy j) * l)| ≤ 150 / 2 ^ 53 * cy j * V

theorem weighted_abs {r c l V cc w : Rat} (h0 : 0 ≤ cc) (hw : 0 ≤ w ∧ w ≤ 2) (hr : |r| ≤ V) (hc : |c| ≤ V) (hl : |l| ≤ V) :
    |cc * (w * r - 2 * c + (2 - w) * l)| ≤ 4 * (cc * V) := by
  have h1 : |w * r| ≤ w * V := by rw [abs_mul, abs_of_nonneg hw.1]; exact mul_le_mul_of_nonneg_left hr hw.1
  have h2 : |(2 - w) * l| ≤ (2 - w) * V := by
    rw [abs_mul, abs_of_nonneg (by linarith : 0 ≤ 2 - w)]; exact mul_le_mul_of_nonneg_left hl (by linarith)
  have : |w * r - 2 * c + (2 - w) * l| ≤ 4 * V := by
    rw [abs_le] at *; constructor <;> linarith [h1.1, h1.2, h2.1, h2.2, hc.1, hc.2]
  rw [abs_mul, abs_of_nonneg h0]
  linarith [mul_le_mul_of_nonneg_left this h0]

section

variable {fX fY : Nat → Rat → Rat → Rat → Rat} {cx wx cy wy : Nat → Rat} {nx ny : Nat}

/-- A step as computed is a step of the scheme, up to rounding. -/
theorem mesh_step_error (hfl : RoundsAll fl) (h : WeightNear fX fY cx wx cy wy nx ny) {u : Nat → Nat → Rat} {V : Rat}
    (hu : ∀ i j, i < nx → j < ny → |u i j| ≤ V) {i j : Nat} (hi : i < nx) (hj : j < ny) :
    |roundedMeshStep fl fX fY nx ny u i j - weightStep cx wx cy wy nx ny u i j| ≤ 90 / 2 ^ 53 * V := by
  have m1 : ∀ k, k % nx < nx := fun k => Nat.mod_lt _ (by omega)
  have m2 : ∀ k, k % ny < ny := fun k => Nat.mod_lt _ (by omega)
  have a1 := hu i j hi hj
  have a2 := hu _ j (m1 (i + 1)) hj
  have a3 := hu _ j (m1 (i + nx - 1)) hj
  have a4 := hu i _ hi (m2 (j + 1))
  have a5 := hu i _ hi (m2 (j + ny - 1))
  rw [roundedMeshStep, weightStep]
  generalize u i j = c at *
  generalize u ((i + 1) % nx) j = r at *
  generalize u ((i + nx - 1) % nx) j = l at *
  generalize u i ((j + 1) % ny) = t at *
  generalize u i ((j + ny - 1) % ny) = b at *
  have hV : 0 ≤ V := (abs_nonneg _).trans a1
  have dx := h.x i hi r c l V a2 a1 a3
  have dy := h.y j hj t c b V a4 a1 a5
  have sx := weighted_abs (h.x0 i hi) (h.hwx i hi) a2 a1 a3
  have sy := weighted_abs (h.y0 j hj) (h.hwy j hj) a4 a1 a5
  have hsum := mul_le_mul_of_nonneg_right (h.sum i j hi hj) hV
  have x0 := mul_nonneg (h.x0 i hi) hV
  have y0 := mul_nonneg (h.y0 j hj) hV
  rw [mul_assoc] at dx dy
  have e1 := hfl.error (c + fX i r c l)
  have e2 := hfl.error (fl (c + fX i r c l) + fY j t c b)
  generalize fX i r c l = p at *
  generalize fY j t c b = q at *
  generalize cx i * (wx i * r - 2 * c + (2 - wx i) * l) = P at *
  generalize cy j * (wy j * t - 2 * c + (2 - wy j) * b) = Q at *
  set o1 := fl (c + p)
  set o2 := fl (o1 + q)
  have hs : 2 * (cx i * V) + 2 * (cy j * V) ≤ (1 + 80 / 2 ^ 53) * V := by linarith
  generalize cx i * V = X at *
  generalize cy j * V = Y at *
  have g1 : |c + p| ≤ 31 / 10 * V := by
    rw [abs_le] at *; norm_num at *; constructor <;> linarith [a1.1, a1.2, dx.1, dx.2, sx.1, sx.2]
  have f1 : |o1 - (c + p)| ≤ 31 / 10 * V / 2 ^ 53 := e1.trans (by gcongr)
  have g2 : |o1 + q| ≤ 31 / 10 * V := by
    rw [abs_le] at *; norm_num at *; constructor <;> linarith [a1.1, a1.2, dx.1, dx.2, sx.1, sx.2, dy.1, dy.2, sy.1, sy.2, f1.1, f1.2]
  have f2 : |o2 - (o1 + q)| ≤ 31 / 10 * V / 2 ^ 53 := e2.trans (by gcongr)
  rw [abs_le] at *; norm_num at *
  constructor <;> linarith [dx.1, dx.2, dy.1, dy.2, f1.1, f1.2, f2.1, f2.2]

/-- A step of the scheme whose coefficients add up to a little more than 1. -/
theorem weightStep_almost (h : WeightNear fX fY cx wx cy wy nx ny) {u : Nat → Nat → Rat} {m M : Rat}
    (hu : ∀ i j, i < nx → j < ny → m ≤ u i j ∧ u i j ≤ M) {i j : Nat} (hi : i < nx) (hj : j < ny) :
    m - 80 / 2 ^ 53 * (M - m) ≤ weightStep cx wx cy wy nx ny u i j ∧
      weightStep cx wx cy wy nx ny u i j ≤ M + 80 / 2 ^ 53 * (M - m) := by
  have m1 : ∀ k, k % nx < nx := fun k => Nat.mod_lt _ (by omega)
  have m2 : ∀ k, k % ny < ny := fun k => Nat.mod_lt _ (by omega)
  have a1 := hu i j hi hj
  have a2 := hu _ j (m1 (i + 1)) hj
  have a3 := hu _ j (m1 (i + nx - 1)) hj
  have a4 := hu i _ hi (m2 (j + 1))
  have a5 := hu i _ hi (m2 (j + ny - 1))
  have hs := h.sum i j hi hj
  have x0 := h.x0 i hi
  have y0 := h.y0 j hj
  obtain ⟨w0, w2⟩ := h.hwx i hi
  obtain ⟨v0, v2⟩ := h.hwy j hj
  have r0 := mul_nonneg x0 w0
  have l0 := mul_nonneg x0 (by linarith : 0 ≤ 2 - wx i)
  have t0 := mul_nonneg y0 v0
  have b0 := mul_nonneg y0 (by linarith : 0 ≤ 2 - wy j)
  have hA : 0 ≤ 1 - 2 * cx i - 2 * cy j + 80 / 2 ^ 53 := by linarith
  have e : weightStep cx wx cy wy nx ny u i j = (1 - 2 * cx i - 2 * cy j) * u i j + cx i * wx i * u ((i + 1) % nx) j
      + cx i * (2 - wx i) * u ((i + nx - 1) % nx) j
      + cy j * wy j * u i ((j + 1) % ny) + cy j * (2 - wy j) * u i ((j + ny - 1) % ny) := by rw [weightStep]; ring
  rw [e]
  constructor
  · have b1 := mul_le_mul_of_nonneg_left a1.1 hA
    have b2 := mul_le_mul_of_nonneg_left a2.1 r0
    have b3 := mul_le_mul_of_nonneg_left a3.1 l0
    have b4 := mul_le_mul_of_nonneg_left a4.1 t0
    have b5 := mul_le_mul_of_nonneg_left a5.1 b0
    have b6 := a1.2
    linarith
  · have b1 := mul_le_mul_of_nonneg_left a1.2 hA
    have b2 := mul_le_mul_of_nonneg_left a2.2 r0
    have b3 := mul_le_mul_of_nonneg_left a3.2 l0
    have b4 := mul_le_mul_of_nonneg_left a4.2 t0
    have b5 := mul_le_mul_of_nonneg_left a5.2 b0
    have b6 := a1.1
    linarith

/-- The temperatures stay between the bounds, up to rounding. -/
theorem mesh_between (hfl : RoundsAll fl) (h : WeightNear fX fY cx wx cy wy nx ny) {u : Nat → Nat → Rat} {cold hot V : Rat}
    (hV : |cold| ≤ V) (hV' : |hot| ≤ V) (hu : ∀ i j, i < nx → j < ny → cold ≤ u i j ∧ u i j ≤ hot) (n : Nat) :
    ∀ i j, i < nx → j < ny → cold - heatTol n * V ≤ (roundedMeshStep fl fX fY nx ny)^[n] u i j ∧
      (roundedMeshStep fl fX fY nx ny)^[n] u i j ≤ hot + heatTol n * V := by
  have V0 : 0 ≤ V := (abs_nonneg _).trans hV
  induction n with
  | zero => intro i j hi hj; simpa [heatTol] using hu i j hi hj
  | succ n ih =>
    intro i j hi hj
    rw [Function.iterate_succ_apply']
    have t0 := mul_nonneg (heatTol_nonneg n) V0
    have hb : ∀ i j, i < nx → j < ny → |(roundedMeshStep fl fX fY nx ny)^[n] u i j| ≤ V + heatTol n * V := by
      intro i j hi hj
      have := ih i j hi hj
      rw [abs_le] at *
      constructor <;> linarith [hV.1, hV'.2]
    have k1 := abs_le.1 (mesh_step_error hfl h hb hi hj)
    have k2 := weightStep_almost h ih hi hj
    have e : heatTol (n + 1) * V = heatTol n * V + 1 / 2 ^ 45 * (V + heatTol n * V) := by rw [heatTol_succ]; ring
    rw [e]
    generalize heatTol n * V = t at *
    rw [abs_le] at hV hV'
    norm_num at *
    constructor <;> linarith [k1.1, k1.2, k2.1, k2.2]

theorem weightStep_sub (u w : Nat → Nat → Rat) (i j : Nat) :
    weightStep cx wx cy wy nx ny u i j - weightStep cx wx cy wy nx ny w i j =
      weightStep cx wx cy wy nx ny (fun i j => u i j - w i j) i j := by
  simp only [weightStep]; ring

/-- The temperatures are those of the scheme, up to rounding. -/
theorem mesh_near (hfl : RoundsAll fl) (h : WeightNear fX fY cx wx cy wy nx ny) {u : Nat → Nat → Rat} {V : Rat}
    (hu : ∀ i j, i < nx → j < ny → |u i j| ≤ V) (n : Nat) : ∀ i j, i < nx → j < ny →
      |(roundedMeshStep fl fX fY nx ny)^[n] u i j - (weightStep cx wx cy wy nx ny)^[n] u i j| ≤ heatTol n * V := by
  induction n with
  | zero => intro i j hi hj; simp [heatTol]
  | succ n ih =>
    intro i j hi hj
    have V0 : 0 ≤ V := (abs_nonneg _).trans (hu i j hi hj)
    have aV : |V| ≤ V := by rw [abs_of_nonneg V0]
    have hb := mesh_between hfl h (cold := -V) (hot := V) (by rw [abs_neg]; exact aV) aV
      (fun i j hi hj => abs_le.1 (hu i j hi hj)) n
    rw [Function.iterate_succ_apply', Function.iterate_succ_apply']
    have hb' : ∀ i j, i < nx → j < ny → |(roundedMeshStep fl fX fY nx ny)^[n] u i j| ≤ V + heatTol n * V := by
      intro i j hi hj
      have := hb i j hi hj
      rw [abs_le]
      constructor <;> linarith
    have k1 := abs_le.1 (mesh_step_error hfl h hb' hi hj)
    have k2 := weightStep_almost h (fun i j hi hj => abs_le.1 (ih i j hi hj)) hi hj
    rw [← weightStep_sub] at k2
    have t0 := mul_nonneg (heatTol_nonneg n) V0
    have e : heatTol (n + 1) * V = heatTol n * V + 1 / 2 ^ 45 * (V + heatTol n * V) := by rw [heatTol_succ]; ring
    rw [e]
    generalize heatTol n * V = t at *
    rw [abs_le]
    norm_num at *
    constructor <;> linarith [k1.1, k1.2, k2.1, k2.2]

end

/-! ## From the time step to the end -/

theorem fl_inv_near (hfl : RoundsAll fl) {l r : Rat} (hl : 0 < l) (hr : 0 < r) : Near 3 (fl (1 / fl (l * r))) (1 / (l * r)) :=
  (((Near.refl (l * r)).fl hfl).inv (by norm_num) (mul_pos hl hr)).fl hfl

theorem rounded_invMax (hfl : RoundsAll fl) {S : Sampler Rat} {t : Dim} {n : Nat} {l r : Nat → Rat} (hn : 1 ≤ n) (hn2 : n < 2 ^ 63)
    (h : ∀ i, i < n → (S.left (el t (i + 1)) = .ok (l i) ∧ 0 < l i) ∧ S.right (el t (i + 1)) = .ok (r i) ∧ 0 < r i) :
    ∃ m, RoundedHeat.invMax fl S (seg t 1 (n + 1)) = .ok m ∧ Greatest n (fun i => fl (1 / fl (l i * r i))) m := by
  obtain ⟨m, h1, h0, h2, h3⟩ := foldMax (f := fun j => fl (1 / fl (l j * r j)))
    (body := fun (s : Rat) (j : Nat) => (do
      let x ← (do
        let e ← Support.leaf (Dom.support (seg t 1 (n + 1))) [BitVec.ofInt 64 (0 + (j : Int))]
        let l ← S.left e
        let r ← S.right e
        if fl (l * r) = 0 then .ub else .ok (fl (1 / fl (l * r))) : Res Rat)
      .ok (Reducer.max x s) : Res Rat)) n
    (by
      intro j hj s
      have h0 : ¬ fl (l j * r j) = 0 := (fl_pos hfl (mul_pos (h j hj).1.2 (h j hj).2.2)).ne'
      simp only [leaf_seg, Res.ok_bind, (h j hj).1.1, (h j hj).2.1, Reducer.max, if_neg h0])
  refine ⟨m, ?_, h2, ?_⟩
  · rw [RoundedHeat.invMax, Support.transformReduce]
    have he : (Dom.support (seg t 1 (n + 1))).extents = .ok (vec t n) := One.extents_nat t (by omega)
    have hlo : Support.transformReduceSerial (Dom.support (seg t 1 (n + 1))) (0 : Rat) (fun a b => .ok (Reducer.max a b)) (fun i => do
        let l ← S.left i
        let r ← S.right i
        if fl (l * r) = 0 then .ub else .ok (fl (1 / fl (l * r)))) (vals (vec t n)) [] = .ok m := by
      rw [← h1]
      simp only [vec, vals, List.map_cons, List.map_nil, Support.transformReduceSerial, List.nil_append, One.toInt_ofNat hn2]
      rw [Support.loop_eq n _ n 0 (by omega)]
    rw [he, Res.ok_bind, hlo]
    rfl
  · rcases h3 with h3 | h3
    · have k := h2 0 (by omega)
      obtain ⟨⟨-, a⟩, -, b⟩ := h 0 (by omega)
      have := (fl_inv_near hfl a b).pos (by norm_num) (by positivity)
      linarith
    · exact h3

/-- What the samplers of a dimension give: points, and distances that are `l` and `r` up to rounding; the greatest `1 / (l r)`,
as computed, is `m` up to rounding. -/
structure SamplerNear (fl : Rat → Rat) (S : Sampler Rat) (t : Dim) (n : Nat) (x l' r' l r : Nat → Rat) (m : Rat) : Prop where
  coordinate : ∀ i, i < n → S.coordinate (el t (i + 1)) = .ok (x i)
  left : ∀ i, i < n → S.left (el t (i + 1)) = .ok (l' i)
  right : ∀ i, i < n → S.right (el t (i + 1)) = .ok (r' i)
  lpos : ∀ i, i < n → 0 < l i
  rpos : ∀ i, i < n → 0 < r i
  lnear : ∀ i, i < n → Near 2 (l' i) (l i)
  rnear : ∀ i, i < n → Near 2 (r' i) (r i)
  mpos : 0 < m
  most : ∀ i, i < n → 1 / (l i * r i) ≤ (1 + 4 / 2 ^ 53) * m
  great : ∀ m', Greatest n (fun i => fl (1 / fl (l' i * r' i))) m' → Near 11 m' m

theorem SamplerNear.coef {S : Sampler Rat} {t : Dim} {n : Nat} {x l' r' l r : Nat → Rat} {m : Rat}
    (h : SamplerNear fl S t n x l' r' l r m) {k dt : Rat} (hk : 0 < k) (hdt : 0 < dt) {i : Nat} (hi : i < n) :
    0 ≤ k * dt / (l i * r i) ∧ (0 ≤ 2 * l i / (l i + r i) ∧ 2 * l i / (l i + r i) ≤ 2) ∧
      k * dt / (l i * r i) ≤ (1 + 4 / 2 ^ 53) * (k * m * dt) := by
  have a := h.lpos i hi
  have b := h.rpos i hi
  refine ⟨by positivity, ⟨by positivity, ?_⟩, ?_⟩
  · rw [div_le_iff₀ (by linarith)]; linarith
  · have := mul_le_mul_of_nonneg_left (h.most i hi) (mul_pos hk hdt).le
    rw [mul_one_div] at this
    linarith

/-- The step of the scheme with distances `l`, `r`, for `N` steps. -/
theorem meshStep_weight {kx ky dt : Rat} {lx rx ly ry : Nat → Rat} {nx ny : Nat} (hx : ∀ i, i < nx → 0 < lx i ∧ 0 < rx i)
    (hy : ∀ j, j < ny → 0 < ly j ∧ 0 < ry j) (u : Nat → Nat → Rat) (i j : Nat) (hi : i < nx) (hj : j < ny) :
    weightStep (fun i => kx * dt / (lx i * rx i)) (fun i => 2 * lx i / (lx i + rx i)) (fun j => ky * dt / (ly j * ry j))
      (fun j => 2 * ly j / (ly j + ry j)) nx ny u i j = meshStep kx ky dt lx rx ly ry nx ny u i j := by
  have key : ∀ k l r a c b : Rat, 0 < l → 0 < r → k * dt / (l * r) * (2 * l / (l + r) * a - 2 * c + (2 - 2 * l / (l + r)) * b) =
      dt * (k * secondDiff l r a c b) := by
    intro k l r a c b hl hr
    have : l + r ≠ 0 := by positivity
    rw [secondDiff]
    field_simp
    ring
  rw [weightStep, meshStep]
  simp only [key _ _ _ _ _ _ (hx i hi).1 (hx i hi).2, key _ _ _ _ _ _ (hy j hj).1 (hy j hj).2]
  ring

theorem meshStep_iterate {kx ky dt : Rat} {lx rx ly ry : Nat → Rat} {nx ny : Nat} (hx : ∀ i, i < nx → 0 < lx i ∧ 0 < rx i)
    (hy : ∀ j, j < ny → 0 < ly j ∧ 0 < ry j) (n : Nat) (u : Nat → Nat → Rat) :
    ∀ i j, i < nx → j < ny → (weightStep (fun i => kx * dt / (lx i * rx i)) (fun i => 2 * lx i / (lx i + rx i))
      (fun j => ky * dt / (ly j * ry j)) (fun j => 2 * ly j / (ly j + ry j)) nx ny)^[n] u i j =
        (meshStep kx ky dt lx rx ly ry nx ny)^[n] u i j := by
  induction n with
  | zero => intro i j _ _; rfl
  | succ n ih =>
    intro i j hi hj
    rw [Function.iterate_succ_apply', Function.iterate_succ_apply', meshStep_weight hx hy _ i j hi hj]
    have m1 : ∀ k, k % nx < nx := fun k => Nat.mod_lt _ (by omega)
    have m2 : ∀ k, k % ny < ny := fun k => Nat.mod_lt _ (by omega)
    rw [meshStep, meshStep, ih i j hi hj, ih _ j (m1 _) hj, ih _ j (m1 _) hj, ih i _ hi (m2 _), ih i _ hi (m2 _)]

theorem solve_cells (hfl : RoundsAll fl) {kx ky t0 t1 : Rat} {nx ny : Nat} (hx1 : 1 ≤ nx) (hy1 : 1 ≤ ny) (hx2 : nx + 2 ≤ 2 ^ 53)
    (hy2 : ny + 2 ≤ 2 ^ 53) (hc : (nx + 2) * (ny + 2) < 2 ^ 64) (ht : t0 < t1) (hkx : 0 < kx) (hky : 0 < ky) {X Y : Sampler Rat}
    {xs lx' rx' lx rx ys ly' ry' ly ry : Nat → Rat} {mx my : Rat} (hX : SamplerNear fl X .x nx xs lx' rx' lx rx mx)
    (hY : SamplerNear fl Y .y ny ys ly' ry' ly ry my) {R : Rat} (hR : R = (t1 - t0) / (1 / 2 / (kx * mx + ky * my))) (hRb : R ≤ 2 ^ 49)
    (temp : Rat → Rat → Rat) (junk : Nat → Rat)
    {order : List (List I64)} (ho : order.Perm (Support.policy [BitVec.ofNat 64 nx, BitVec.ofNat 64 ny]))
    {orders : Nat → Orders} (hos : ∀ k, OrdersOk nx ny (orders k)) :
    ∃ mem v, ∃ (N : Nat), ∃ u : Nat → Nat → Rat,
      RoundedHeat.solve fl kx ky t0 t1 (axisOf .x nx) (axisOf .y ny) X Y temp junk order orders = .ok (mem, v) ∧
      0 < N ∧ (1 - 60 / 2 ^ 53) * R ≤ N ∧ (N : Rat) < (1 + 60 / 2 ^ 53) * R + 1 ∧
      (∀ i j, i < nx → j < ny →
        View.get mem v [[(Dim.x, BitVec.ofNat 64 (i + 1))], [(Dim.y, BitVec.ofNat 64 (j + 1))]] = .ok (u i j)) ∧
      (∀ V, (∀ i j, i < nx → j < ny → |temp (xs i) (ys j)| ≤ V) → ∀ i j, i < nx → j < ny →
        |u i j - (meshStep kx ky ((t1 - t0) / N) lx rx ly ry nx ny)^[N] (fun i j => temp (xs i) (ys j)) i j| ≤ heatTol N * V) ∧
      (∀ cold hot V, |cold| ≤ V → |hot| ≤ V →
        (∀ i j, i < nx → j < ny → cold ≤ temp (xs i) (ys j) ∧ temp (xs i) (ys j) ≤ hot) → ∀ i j, i < nx → j < ny →
          cold - heatTol N * V ≤ u i j ∧ u i j ≤ hot + heatTol N * V) ∧
      (∃ pos, Heat.Grid nx ny v.span.md.cells pos v.span ∧ Heat.Holds nx ny pos mem v.buf (fun i j => u (i - 1) (j - 1))) ∧
      ∀ i j, i < nx → j < ny → ∃ q, u i j = fl q := by
  obtain ⟨mx', a1, a2⟩ := rounded_invMax (S := X) (t := .x) (l := lx') (r := rx') hfl hx1 (by omega) (fun i hi =>
    ⟨⟨hX.left i hi, (hX.lnear i hi).pos (by norm_num) (hX.lpos i hi)⟩, hX.right i hi, (hX.rnear i hi).pos (by norm_num) (hX.rpos i hi)⟩)
  obtain ⟨my', b1, b2⟩ := rounded_invMax (S := Y) (t := .y) (l := ly') (r := ry') hfl hy1 (by omega) (fun i hi =>
    ⟨⟨hY.left i hi, (hY.lnear i hi).pos (by norm_num) (hY.lpos i hi)⟩, hY.right i hi, (hY.rnear i hi).pos (by norm_num) (hY.rpos i hi)⟩)
  have nst := near_stableDt hfl hkx hky hX.mpos hY.mpos (hX.great _ a2) (hY.great _ b2)
  have hT : 0 < t1 - t0 := sub_pos.2 ht
  have kmx := mul_pos hkx hX.mpos
  have kmy := mul_pos hky hY.mpos
  have hst : 0 < 1 / 2 / (kx * mx + ky * my) := by positivity
  obtain ⟨R', hR'⟩ : ∃ R', R' = fl (fl (t1 - t0) / RoundedHeat.stableDt fl kx mx' ky my') := ⟨_, rfl⟩
  have nR : Near 56 R' R := by
    rw [hR', hR, div_eq_mul_one_div, div_eq_mul_one_div (t1 - t0)]
    exact ((((Near.refl _).fl hfl).mul (nst.inv (by norm_num) hst)).fl hfl).mono (by norm_num)
  have hR0 : 0 < R := by rw [hR]; exact div_pos hT hst
  have hR'0 := nR.pos (by norm_num) hR0
  have hR'1 : |R' - R| ≤ 60 / 2 ^ 53 * R := by
    refine (show |R' - R| ≤ _ from nR).trans ?_
    rw [abs_of_pos hR0]
    refine mul_le_mul_of_nonneg_right ?_ hR0.le
    have := up_le 56 (by norm_num)
    norm_num at this ⊢
    linarith
  rw [abs_le] at hR'1
  obtain ⟨N, hN⟩ : ∃ N : Nat, ⌈R'⌉ = (N : Int) := ⟨⌈R'⌉.toNat, (Int.toNat_of_nonneg (Int.ceil_nonneg hR'0.le)).symm⟩
  have hN0 : 0 < N := by
    have := Int.ceil_pos.2 hR'0
    omega
  have hN1 : R' ≤ N := by
    have := Int.le_ceil R'
    rwa [hN, Int.cast_natCast] at this
  have hN2 : (N : Rat) < R' + 1 := by
    have := Int.ceil_lt_add_one R'
    rwa [hN, Int.cast_natCast] at this
  have hNb : N < 2 ^ 50 := by
    have : (N : Rat) < 2 ^ 50 := lt_of_lt_of_le hN2 (by norm_num at hR'1 hRb ⊢; linarith [hR'1.2])
    exact_mod_cast this
  have hN' : (0 : Rat) < N := by exact_mod_cast hN0
  obtain ⟨dt, hdt⟩ : ∃ dt, dt = fl (fl (t1 - t0) / (N : Rat)) := ⟨_, rfl⟩
  have ndt : Near 2 dt ((t1 - t0) / N) := by rw [hdt]; exact near_gap hfl _ _ _
  have hdt0 : 0 < (t1 - t0) / (N : Rat) := div_pos hT hN'
  have hsum : 2 * (kx * mx * ((t1 - t0) / N)) + 2 * (ky * my * ((t1 - t0) / N)) ≤ 1 + 70 / 2 ^ 53 := by
    have e : 2 * (kx * mx * ((t1 - t0) / N)) + 2 * (ky * my * ((t1 - t0) / N)) = R / N := by
      rw [hR]; field_simp
    rw [e, div_le_iff₀ hN']
    norm_num at hR'1 ⊢
    linarith [hR'1.1]
  have inc : WeightNear (fun i => RoundedHeat.distInc fl kx dt (lx' i) (rx' i)) (fun j => RoundedHeat.distInc fl ky dt (ly' j) (ry' j))
      (fun i => kx * ((t1 - t0) / N) / (lx i * rx i)) (fun i => 2 * lx i / (lx i + rx i))
      (fun j => ky * ((t1 - t0) / N) / (ly j * ry j)) (fun j => 2 * ly j / (ly j + ry j)) nx ny := by
    refine ⟨fun i hi => (hX.coef hkx hdt0 hi).1, fun j hj => (hY.coef hky hdt0 hj).1, fun i hi => (hX.coef hkx hdt0 hi).2.1,
      fun j hj => (hY.coef hky hdt0 hj).2.1, fun i j hi hj => ?_,
      fun i hi r c l V h1 h2 h3 => dist_inc_error hfl hkx hdt0 (hX.lpos i hi) (hX.rpos i hi) ndt (hX.lnear i hi) (hX.rnear i hi) h1 h2 h3,
      fun j hj r c l V h1 h2 h3 => dist_inc_error hfl hky hdt0 (hY.lpos j hj) (hY.rpos j hj) ndt (hY.lnear j hj) (hY.rnear j hj) h1 h2 h3⟩
    have q1 := (hX.coef hkx hdt0 hi).2.2
    have q2 := (hY.coef hky hdt0 hj).2.2
    norm_num at q1 q2 hsum ⊢
    linarith
  have i3 := rounded_init hfl Dim.t ht (n := N + 1) (by omega) (by omega)
  rw [show N + 1 - 1 = N by omega, fl_nat hfl (show N ≤ 2 ^ 53 by omega), ← hdt] at i3
  have shift : ∀ i, 1 ≤ i → i - 1 + 1 = i := fun i hi => by omega
  obtain ⟨mem, last, next, s, pos, C, c1, G, c3, c4, c5, c6, c7, c8⟩ := allocate_ok (nx := nx) (ny := ny) hx1 hy1
    (by omega) (by omega) hc (xOf := X.coordinate) (yOf := Y.coordinate) (xs := fun i => xs (i - 1)) (ys := fun j => ys (j - 1))
    (fun i h1 h2 => by have := hX.coordinate (i - 1) (by omega); rwa [shift i h1] at this)
    (fun j h1 h2 => by have := hY.coordinate (j - 1) (by omega); rwa [shift j h1] at this) temp junk ho
  obtain ⟨mem', v, d1, d2, d3⟩ := timeLoop_ok (add := RoundedHeat.add fl) (incX := RoundedHeat.distanceInc fl X kx dt)
    (incY := RoundedHeat.distanceInc fl Y ky dt) (dX := fun i => RoundedHeat.distInc fl kx dt (lx' (i - 1)) (rx' (i - 1)))
    (dY := fun j => RoundedHeat.distInc fl ky dt (ly' (j - 1)) (ry' (j - 1))) G
    (fun i h1 h2 r c l => by
      have k1 := hX.left (i - 1) (by omega)
      have k2 := hX.right (i - 1) (by omega)
      rw [shift i h1] at k1 k2
      rw [RoundedHeat.distanceInc, k1, Res.ok_bind, k2, Res.ok_bind])
    (fun j h1 h2 r c l => by
      have k1 := hY.left (j - 1) (by omega)
      have k2 := hY.right (j - 1) (by omega)
      rw [shift j h1] at k1 k2
      rw [RoundedHeat.distanceInc, k1, Res.ok_bind, k2, Res.ok_bind])
    hos N 0 c3 c4 c5 c6 c7 c8
  refine ⟨mem', v, N, _, ?_, hN0, by linarith [hR'1.1], by linarith [hR'1.2], ?_, fun V hV i j hi hj => ?_,
    fun cold hot V h1 h2 h3 => mesh_between hfl inc h1 h2 h3 N, ⟨pos, ?_, ?_⟩, ?_⟩
  · obtain ⟨t1, t2⟩ := time_ok N (by omega)
    have hadd : Vect.addInt [(Dim.t, BitVec.ofNat 64 N)] 1 = .ok [(Dim.t, BitVec.ofNat 64 (N + 1))] := by
      have : (1 : I64) = BitVec.ofNat 64 1 := rfl
      rw [Vect.addInt, this, One.sAdd_nat (by omega)]; rfl
    have hMn : (BitVec.ofNat 64 N).toNat = N := by rw [BitVec.toNat_ofNat]; omega
    have a1' : RoundedHeat.invMax fl X (axisOf .x nx).main = .ok mx' := a1
    have b1' : RoundedHeat.invMax fl Y (axisOf .y ny).main = .ok my' := b1
    rw [RoundedHeat.solve, a1', Res.ok_bind, b1', Res.ok_bind]
    simp only [Res.ok_bind, ← hR', rounded_ceilCast hfl hN hNb, hadd, i3, c1, t1, t2, hMn, d1]
  · intro i j hi hj
    refine Heat.get_ok (by rw [d2]; exact G.chart) (by omega) (by omega) (by omega) (by omega) ?_
    rw [d3 (i + 1) (j + 1) (by omega) (by omega) (by omega) (by omega)]
    congr 1
    exact rounded_mesh_torus (fun i _ => rfl) (fun j _ => rfl) (fun i j _ _ => rfl) N i j hi hj
  · rw [← meshStep_iterate (fun i hi => ⟨hX.lpos i hi, hX.rpos i hi⟩) (fun j hj => ⟨hY.lpos j hj, hY.rpos j hj⟩) N _ i j hi hj]
    exact mesh_near hfl inc hV N i j hi hj
  · rw [d2, G.cells]; exact G
  · intro i j h1 h2 h3 h4
    obtain ⟨i, rfl⟩ : ∃ k, i = k + 1 := ⟨i - 1, by omega⟩
    obtain ⟨j, rfl⟩ : ∃ k, j = k + 1 := ⟨j - 1, by omega⟩
    rw [d3 (i + 1) (j + 1) (by omega) (by omega) (by omega) (by omega)]
    congr 1
    exact rounded_mesh_torus (fun i _ => rfl) (fun j _ => rfl) (fun i j _ _ => rfl) N i j (by omega) (by omega)
  · intro i j _ _
    obtain ⟨n, rfl⟩ : ∃ n, N = n + 1 := ⟨N - 1, by omega⟩
    rw [Function.iterate_succ_apply']
    exact ⟨_, rfl⟩

theorem rounded_solve (hfl : RoundsAll fl) {kx ky t0 t1 : Rat} {nx ny : Nat} (hx1 : 1 ≤ nx) (hy1 : 1 ≤ ny) (hx2 : nx + 2 ≤ 2 ^ 53)
    (hy2 : ny + 2 ≤ 2 ^ 53) (hc : (nx + 2) * (ny + 2) < 2 ^ 64) (ht : t0 < t1) (hkx : 0 < kx) (hky : 0 < ky) {X Y : Sampler Rat}
    {xs lx' rx' lx rx ys ly' ry' ly ry : Nat → Rat} {mx my : Rat} (hX : SamplerNear fl X .x nx xs lx' rx' lx rx mx)
    (hY : SamplerNear fl Y .y ny ys ly' ry' ly ry my) {R : Rat} (hR : R = (t1 - t0) / (1 / 2 / (kx * mx + ky * my))) (hRb : R ≤ 2 ^ 49)
    (temp : Rat → Rat → Rat) (junk : Nat → Rat)
    {order : List (List I64)} (ho : order.Perm (Support.policy [BitVec.ofNat 64 nx, BitVec.ofNat 64 ny]))
    {orders : Nat → Orders} (hos : ∀ k, OrdersOk nx ny (orders k)) :
    ∃ mem v, ∃ (N : Nat), ∃ u : Nat → Nat → Rat,
      RoundedHeat.solve fl kx ky t0 t1 (axisOf .x nx) (axisOf .y ny) X Y temp junk order orders = .ok (mem, v) ∧
      0 < N ∧ (1 - 60 / 2 ^ 53) * R ≤ N ∧ (N : Rat) < (1 + 60 / 2 ^ 53) * R + 1 ∧
      (∀ i j, i < nx → j < ny →
        View.get mem v [[(Dim.x, BitVec.ofNat 64 (i + 1))], [(Dim.y, BitVec.ofNat 64 (j + 1))]] = .ok (u i j)) ∧
      (∀ V, (∀ i j, i < nx → j < ny → |temp (xs i) (ys j)| ≤ V) → ∀ i j, i < nx → j < ny →
        |u i j - (meshStep kx ky ((t1 - t0) / N) lx rx ly ry nx ny)^[N] (fun i j => temp (xs i) (ys j)) i j| ≤ heatTol N * V) ∧
      ∀ cold hot V, |cold| ≤ V → |hot| ≤ V →
        (∀ i j, i < nx → j < ny → cold ≤ temp (xs i) (ys j) ∧ temp (xs i) (ys j) ≤ hot) → ∀ i j, i < nx → j < ny →
          cold - heatTol N * V ≤ u i j ∧ u i j ≤ hot + heatTol N * V := by
  obtain ⟨mem, v, N, u, a1, a2, a3, a4, a5, a6, a7, -⟩ := solve_cells hfl hx1 hy1 hx2 hy2 hc ht hkx hky hX hY hR hRb temp junk ho hos
  exact ⟨mem, v, N, u, a1, a2, a3, a4, a5, a6, a7⟩

/-! ## Equally spaced points -/

theorem uniform_near (hfl : RoundsAll fl) (t : Dim) {a b : Rat} (hab : a < b) {n : Nat} (hn : 2 ≤ n) (h : n + 2 ≤ 2 ^ 53)
    {s' o : Rat} (hs' : s' = fl (fl (b - a) / ((n - 1 : Nat) : Rat))) :
    SamplerNear fl (RoundedHeat.uniformSampler fl (⟨o, s', el t 0⟩ : Uniform Dim Rat)) t n
      (fun i => flPoint fl o s' ((i + 1 : Nat) : Int)) (fun _ => s') (fun _ => s') (fun _ => gap a b n) (fun _ => gap a b n)
      (1 / (gap a b n * gap a b n)) := by
  have g := gap_pos hab hn
  have nd : Near 2 s' (gap a b n) := by rw [hs', gap_eq hn]; exact near_gap hfl _ _ _
  have q : 0 < 1 / (gap a b n * gap a b n) := by positivity
  refine ⟨fun i hi => uniformCoordinate_ok hfl t o s' (by omega), fun _ _ => rfl, fun _ _ => rfl, fun _ _ => g, fun _ _ => g,
    fun _ _ => nd, fun _ _ => nd, q, fun _ _ => ?_, fun m' hm => ?_⟩
  · generalize 1 / (gap a b n * gap a b n) = q at *
    norm_num; linarith
  · obtain ⟨-, i, -, rfl⟩ := hm
    exact (((nd.mul nd).fl hfl).inv (by norm_num) (mul_pos g g)).fl hfl

section

variable {p : Params Rat} {nx ny : Nat}

/-- `C84_uniform`, with the cells of the chunk in which the temperatures are. -/
theorem distances_cells (hfl : RoundsAll fl) (h : RoundedHeatSetting p nx ny) (temp : Rat → Rat → Rat) (junk : Nat → Rat)
    (order : List (List I64)) (ho : order.Perm (Support.policy [BitVec.ofNat 64 nx, BitVec.ofNat 64 ny])) (orders : Nat → Orders)
    (hos : ∀ k, OrdersOk nx ny (orders k)) :
    ∃ mem v, ∃ (N : Nat) (xs ys : Nat → Rat), ∃ u : Nat → Nat → Rat,
      RoundedHeat.mainDistances fl p temp junk order orders = .ok (mem, v) ∧
      0 < N ∧ (1 - 60 / 2 ^ 53) * stepRatio p nx ny ≤ N ∧ (N : Rat) < (1 + 60 / 2 ^ 53) * stepRatio p nx ny + 1 ∧
      PointsNear p.xStart p.xEnd nx xs ∧ PointsNear p.yStart p.yEnd ny ys ∧
      (∀ i j, i < nx → j < ny →
        View.get mem v [[(Dim.x, BitVec.ofNat 64 (i + 1))], [(Dim.y, BitVec.ofNat 64 (j + 1))]] = .ok (u i j)) ∧
      (∀ V, (∀ i j, i < nx → j < ny → |temp (xs i) (ys j)| ≤ V) → ∀ i j, i < nx → j < ny →
        |u i j - (heatStep (coefX p nx N) (coefY p ny N) nx ny)^[N] (fun i j => temp (xs i) (ys j)) i j| ≤ heatTol N * V) ∧
      (∀ cold hot V, |cold| ≤ V → |hot| ≤ V →
        (∀ i j, i < nx → j < ny → cold ≤ temp (xs i) (ys j) ∧ temp (xs i) (ys j) ≤ hot) → ∀ i j, i < nx → j < ny →
          cold - heatTol N * V ≤ u i j ∧ u i j ≤ hot + heatTol N * V) ∧
      (∃ pos, Heat.Grid nx ny v.span.md.cells pos v.span ∧ Heat.Holds nx ny pos mem v.buf (fun i j => u (i - 1) (j - 1))) ∧
      ∀ i j, i < nx → j < ny → ∃ q, u i j = fl q := by
  have hx := h.x2; have hy := h.y2; have hxb := h.xb; have hyb := h.yb
  have g1 := gap_pos h.xs h.x2
  have g2 := gap_pos h.ys h.y2
  obtain ⟨dx, hdx⟩ : ∃ dx, dx = fl (fl (p.xEnd - p.xStart) / ((nx - 1 : Nat) : Rat)) := ⟨_, rfl⟩
  obtain ⟨dy, hdy⟩ : ∃ dy, dy = fl (fl (p.yEnd - p.yStart) / ((ny - 1 : Nat) : Rat)) := ⟨_, rfl⟩
  have i1 := rounded_ghosted1 hfl Dim.x h.xs (by omega) hxb hdx
  have i2 := rounded_ghosted1 hfl Dim.y h.ys (by omega) hyb hdy
  have px := points_near hfl h.xs hx hdx
  have py := points_near hfl h.ys hy hdy
  obtain ⟨ox, hox⟩ : ∃ ox, ox = fl (p.xStart - fl (((1 : Nat) : Rat) * dx)) := ⟨_, rfl⟩
  obtain ⟨oy, hoy⟩ : ∃ oy, oy = fl (p.yStart - fl (((1 : Nat) : Rat) * dy)) := ⟨_, rfl⟩
  rw [← hox] at i1 px
  rw [← hoy] at i2 py
  have es : stepRatio p nx ny = (p.endTime - p.startTime) / (1 / 2 / (p.kx * (1 / (gap p.xStart p.xEnd nx * gap p.xStart p.xEnd nx)) +
        p.ky * (1 / (gap p.yStart p.yEnd ny * gap p.yStart p.yEnd ny)))) := by
    rw [stepRatio, stableStep, div_div, mul_one_div, mul_one_div, pow_two, pow_two]
  have hRb : stepRatio p nx ny ≤ 2 ^ 49 := by rw [stepRatio, div_le_iff₀ h.stable_pos]; exact h.steps
  obtain ⟨mem, v, N, u, a1, a2, a3, a4, a5, a6, a7, a8⟩ := solve_cells hfl (by omega) (by omega) hxb hyb h.cells h.ts h.kxp h.kyp
    (uniform_near hfl .x (o := ox) h.xs hx hxb hdx) (uniform_near hfl .y (o := oy) h.ys hy hyb hdy) es hRb temp junk ho hos
  have e : meshStep p.kx p.ky ((p.endTime - p.startTime) / N) (fun _ => gap p.xStart p.xEnd nx) (fun _ => gap p.xStart p.xEnd nx)
      (fun _ => gap p.yStart p.yEnd ny) (fun _ => gap p.yStart p.yEnd ny) nx ny = heatStep (coefX p nx N) (coefY p ny N) nx ny := by
    funext u i j
    rw [meshStep, heatStep, secondDiff, secondDiff, coefX, coefY]
    field_simp
    ring
  rw [e] at a6
  refine ⟨mem, v, N, _, _, u, ?_, a2, a3, a4, px, py, a5, a6, a7, a8⟩
  rw [RoundedHeat.mainDistances, h.enx, h.eny, i1, Res.ok_bind]
  simp only [axis_ok, Res.ok_bind, i2]
  exact a1

/-- Idem C83, for the program with distances between points (`/repo/examples/heat_equation.cpp`). -/
theorem C84_uniform (hfl : RoundsAll fl) (h : RoundedHeatSetting p nx ny) (temp : Rat → Rat → Rat) (junk : Nat → Rat)
    (order : List (List I64)) (ho : order.Perm (Support.policy [BitVec.ofNat 64 nx, BitVec.ofNat 64 ny])) (orders : Nat → Orders)
    (hos : ∀ k, OrdersOk nx ny (orders k)) :
    ∃ mem v, ∃ (N : Nat) (xs ys : Nat → Rat), ∃ u : Nat → Nat → Rat,
      RoundedHeat.mainDistances fl p temp junk order orders = .ok (mem, v) ∧
      0 < N ∧ (1 - 60 / 2 ^ 53) * stepRatio p nx ny ≤ N ∧ (N : Rat) < (1 + 60 / 2 ^ 53) * stepRatio p nx ny + 1 ∧
      PointsNear p.xStart p.xEnd nx xs ∧ PointsNear p.yStart p.yEnd ny ys ∧
      (∀ i j, i < nx → j < ny →
        View.get mem v [[(Dim.x, BitVec.ofNat 64 (i + 1))], [(Dim.y, BitVec.ofNat 64 (j + 1))]] = .ok (u i j)) ∧
      (∀ V, (∀ i j, i < nx → j < ny → |temp (xs i) (ys j)| ≤ V) → ∀ i j, i < nx → j < ny →
        |u i j - (heatStep (coefX p nx N) (coefY p ny N) nx ny)^[N] (fun i j => temp (xs i) (ys j)) i j| ≤ heatTol N * V) ∧
      ∀ cold hot V, |cold| ≤ V → |hot| ≤ V →
        (∀ i j, i < nx → j < ny → cold ≤ temp (xs i) (ys j) ∧ temp (xs i) (ys j) ≤ hot) → ∀ i j, i < nx → j < ny →
          cold - heatTol N * V ≤ u i j ∧ u i j ≤ hot + heatTol N * V := by
  obtain ⟨mem, v, N, xs, ys, u, m1, m2, m3, m4, m5, m6, m7, m8, m9, -⟩ := distances_cells hfl h temp junk order ho orders hos
  exact ⟨mem, v, N, xs, ys, u, m1, m2, m3, m4, m5, m6, m7, m8, m9⟩

open Finset in
/-- The sum of the temperatures is conserved up to rounding, with equally spaced points. -/
theorem C84_conservation (hfl : RoundsAll fl) (h : RoundedHeatSetting p nx ny) (temp : Rat → Rat → Rat) (junk : Nat → Rat)
    (order : List (List I64)) (ho : order.Perm (Support.policy [BitVec.ofNat 64 nx, BitVec.ofNat 64 ny])) (orders : Nat → Orders)
    (hos : ∀ k, OrdersOk nx ny (orders k)) :
    ∃ mem v, ∃ (N : Nat) (xs ys : Nat → Rat), ∃ u : Nat → Nat → Rat,
      RoundedHeat.mainDistances fl p temp junk order orders = .ok (mem, v) ∧
      (N : Rat) < (1 + 60 / 2 ^ 53) * stepRatio p nx ny + 1 ∧
      PointsNear p.xStart p.xEnd nx xs ∧ PointsNear p.yStart p.yEnd ny ys ∧
      (∀ i j, i < nx → j < ny →
        View.get mem v [[(Dim.x, BitVec.ofNat 64 (i + 1))], [(Dim.y, BitVec.ofNat 64 (j + 1))]] = .ok (u i j)) ∧
      ∀ V, (∀ i j, i < nx → j < ny → |temp (xs i) (ys j)| ≤ V) →
        |∑ i ∈ range nx, ∑ j ∈ range ny, u i j - ∑ i ∈ range nx, ∑ j ∈ range ny, temp (xs i) (ys j)| ≤
          nx * ny * (heatTol N * V) := by
  obtain ⟨mem, v, N, xs, ys, u, m1, -, -, m3, m4, m5, m6, m7, -⟩ := C84_uniform hfl h temp junk order ho orders hos
  refine ⟨mem, v, N, xs, ys, u, m1, m3, m4, m5, m6, fun V hV => ?_⟩
  have key : ∀ (n : Nat) (w : Nat → Nat → Rat), ∑ i ∈ range nx, ∑ j ∈ range ny,
      (heatStep (coefX p nx N) (coefY p ny N) nx ny)^[n] w i j = ∑ i ∈ range nx, ∑ j ∈ range ny, w i j := by
    intro n
    induction n with
    | zero => intro w; rfl
    | succ n ih => intro w; exact (ih _).trans (heatStep_sum _ _ nx ny w)
  rw [← key N (fun i j => temp (xs i) (ys j)), ← sum_sub_distrib]
  refine (abs_sum_le_sum_abs _ _).trans ?_
  refine (sum_le_sum (g := fun _ => (ny : Rat) * (heatTol N * V)) fun i hi => ?_).trans ?_
  · rw [← sum_sub_distrib]
    refine (abs_sum_le_sum_abs _ _).trans ?_
    refine (sum_le_sum (g := fun _ => heatTol N * V) fun j hj => m7 V hV i j (mem_range.1 hi) (mem_range.1 hj)).trans ?_
    rw [sum_const, card_range, nsmul_eq_mul]
  · rw [sum_const, card_range, nsmul_eq_mul, mul_assoc]

end

/-! ## Displaced points -/

/-- Point `i` of `n`, as computed. -/
def flMeshPoint (fl : Rat → Rat) (a b : Rat) (dis : Nat → Rat) (n i : Nat) : Rat :=
  if 1 ≤ i ∧ i + 1 < n then
    fl (fl (a + fl (i * fl (fl (b - a) / ((n - 1 : Nat) : Rat)))) + fl (dis i * fl (fl (b - a) / ((n - 1 : Nat) : Rat))))
  else fl (a + fl (i * fl (fl (b - a) / ((n - 1 : Nat) : Rat))))

/-- The points with the ghosts, as computed. -/
def flGhost (fl : Rat → Rat) (x : Nat → Rat) (n i : Nat) : Rat :=
  if i = 0 then fl (x (n - 2) - fl (x (n - 1) - x 0)) else if i = n + 1 then fl (x 1 + fl (x (n - 1) - x 0)) else x (i - 1)

section points

variable {a b : Rat} {dis : Nat → Rat} {n : Nat}

theorem meshPoint_size (hab : a < b) (hn : 2 ≤ n) (hd : ∀ i, 1 ≤ i → i + 1 < n → |dis i| ≤ 1 / 8) {i : Nat} (hi : i < n) :
    |a + i * gap a b n| ≤ |a| + |b| ∧ (i : Rat) * gap a b n ≤ b - a ∧ gap a b n ≤ b - a ∧
      |meshPoint a b dis n i| ≤ 9 / 8 * (|a| + |b|) := by
  have hg := gap_pos hab hn
  have hgn : ((n - 1 : Nat) : Rat) * gap a b n = b - a := by
    have : (0 : Rat) < ((n - 1 : Nat) : Rat) := by exact_mod_cast (by omega : 0 < n - 1)
    rw [gap_eq hn]; exact mul_div_cancel₀ _ this.ne'
  have hle : ∀ k, k ≤ n - 1 → (k : Rat) * gap a b n ≤ b - a := fun k hk => by
    rw [← hgn]; exact mul_le_mul_of_nonneg_right (by exact_mod_cast hk) hg.le
  have hi0 : 0 ≤ (i : Rat) * gap a b n := mul_nonneg (Nat.cast_nonneg i) hg.le
  have hi1 := hle i (by omega)
  have h1 := hle 1 (by omega)
  rw [Nat.cast_one, one_mul] at h1
  have ha := abs_nonneg a
  have hb := abs_nonneg b
  have ha1 := abs_le.1 (le_refl |a|)
  have hb1 := abs_le.1 (le_refl |b|)
  refine ⟨by rw [abs_le]; constructor <;> linarith, hi1, h1, ?_⟩
  rw [meshPoint]
  split
  · rename_i h
    have : |dis i * gap a b n| ≤ 1 / 8 * gap a b n := by
      rw [abs_mul, abs_of_pos hg]; exact mul_le_mul_of_nonneg_right (hd i h.1 h.2) hg.le
    rw [abs_le] at this ⊢
    constructor <;> linarith [this.1, this.2]
  · rw [abs_le]; constructor <;> linarith

theorem meshPoint_error (hfl : RoundsAll fl) (hab : a < b) (hn : 2 ≤ n) (hd : ∀ i, 1 ≤ i → i + 1 < n → |dis i| ≤ 1 / 8) {i : Nat}
    (hi : i < n) : |flMeshPoint fl a b dis n i - meshPoint a b dis n i| ≤ 6 / 2 ^ 53 * (|a| + |b|) := by
  have hg := gap_pos hab hn
  obtain ⟨s1, s2, s3, -⟩ := meshPoint_size hab hn hd hi
  have nd : Near 2 (fl (fl (b - a) / ((n - 1 : Nat) : Rat))) (gap a b n) := by rw [gap_eq hn]; exact near_gap hfl _ _ _
  rw [flMeshPoint, meshPoint]
  generalize fl (fl (b - a) / ((n - 1 : Nat) : Rat)) = dx at *
  have hM : b - a ≤ |a| + |b| := by
    have ha1 := abs_le.1 (le_refl |a|)
    have hb1 := abs_le.1 (le_refl |b|)
    linarith
  have u3 := up_le 3 (by norm_num)
  have n1 : Near 3 (fl (i * dx)) (i * gap a b n) := (((Near.refl (i : Rat)).mul nd).fl hfl).mono (by norm_num)
  have hi0 : 0 ≤ (i : Rat) * gap a b n := mul_nonneg (Nat.cast_nonneg i) hg.le
  have f1 : |fl (i * dx) - i * gap a b n| ≤ 32 / 10 / 2 ^ 53 * (|a| + |b|) := by
    refine (show _ ≤ _ from n1).trans (mul_le_mul (by norm_num at u3 ⊢; linarith) ?_ (abs_nonneg _) (by norm_num))
    rw [abs_of_nonneg hi0]; linarith
  have e1 := hfl.error (a + fl (i * dx))
  generalize fl (i * dx) = q at *
  generalize (i : Rat) * gap a b n = Q at *
  have g1 : |a + q| ≤ 101 / 100 * (|a| + |b|) := by
    rw [abs_le] at *; constructor <;> linarith [s1.1, s1.2, f1.1, f1.2]
  have f2 := e1.trans (by gcongr : |a + q| / 2 ^ 53 ≤ 101 / 100 * (|a| + |b|) / 2 ^ 53)
  generalize fl (a + q) = x at *
  split
  · rename_i h
    have n2 : Near 3 (fl (dis i * dx)) (dis i * gap a b n) := (((Near.refl (dis i)).mul nd).fl hfl).mono (by norm_num)
    have k : |dis i * gap a b n| ≤ 1 / 8 * (|a| + |b|) := by
      rw [abs_mul, abs_of_pos hg]
      have := mul_le_mul_of_nonneg_right (hd i h.1 h.2) hg.le
      linarith
    have f3 : |fl (dis i * dx) - dis i * gap a b n| ≤ 32 / 10 / 2 ^ 53 * (1 / 8 * (|a| + |b|)) :=
      (show _ ≤ _ from n2).trans (mul_le_mul (by norm_num at u3 ⊢; linarith) k (abs_nonneg _) (by norm_num))
    have e2 := hfl.error (x + fl (dis i * dx))
    generalize fl (dis i * dx) = r at *
    generalize dis i * gap a b n = R at *
    generalize |a| + |b| = M at *
    have g2 : |x + r| ≤ 12 / 10 * M := by
      rw [abs_le] at *; constructor <;> linarith [s1.1, s1.2, f1.1, f1.2, f2.1, f2.2, f3.1, f3.2, k.1, k.2]
    have f4 := e2.trans (by gcongr : |x + r| / 2 ^ 53 ≤ 12 / 10 * M / 2 ^ 53)
    rw [abs_le] at *
    constructor <;> linarith [f1.1, f1.2, f2.1, f2.2, f3.1, f3.2, f4.1, f4.2]
  · generalize |a| + |b| = M at *
    rw [abs_le] at *
    constructor <;> linarith [f1.1, f1.2, f2.1, f2.2]

theorem meshPoint_gap (hab : a < b) (hn : 2 ≤ n) (hd : ∀ i, 1 ≤ i → i + 1 < n → |dis i| ≤ 1 / 8) (i : Nat) :
    3 / 4 * gap a b n ≤ meshPoint a b dis n (i + 1) - meshPoint a b dis n i := by
  have hg := gap_pos hab hn
  have h : ∀ j, |(if 1 ≤ j ∧ j + 1 < n then dis j * gap a b n else 0)| ≤ 1 / 8 * gap a b n := by
    intro j
    split
    · rename_i h
      rw [abs_mul, abs_of_pos hg]; exact mul_le_mul_of_nonneg_right (hd j h.1 h.2) hg.le
    · rw [abs_zero]; linarith
  have h1 := abs_le.1 (h i)
  have h2 := abs_le.1 (h (i + 1))
  rw [meshPoint, meshPoint, Nat.cast_add, Nat.cast_one]
  linarith [h1.1, h1.2, h2.1, h2.2]

theorem meshGaps (hab : a < b) (hn : 2 ≤ n) (hd : ∀ i, 1 ≤ i → i + 1 < n → |dis i| ≤ 1 / 8) (i : Nat) :
    3 / 4 * gap a b n ≤ leftGap (meshPoint a b dis n) n i ∧ 3 / 4 * gap a b n ≤ rightGap (meshPoint a b dis n) n i := by
  have h := meshPoint_gap hab hn hd
  constructor
  · rw [leftGap]
    split
    · have := h (n - 2)
      rwa [show n - 2 + 1 = n - 1 by omega] at this
    · have := h (i - 1)
      rwa [show i - 1 + 1 = i by omega] at this
  · rw [rightGap]
    split
    · exact h 0
    · exact h i

theorem ghost_gap_error (hfl : RoundsAll fl) (hn : 2 ≤ n) {x y : Nat → Rat} {M : Rat} (hM : 0 ≤ M)
    (hx : ∀ i, i < n → |x i - y i| ≤ 6 / 2 ^ 53 * M) (hy : ∀ i, i < n → |y i| ≤ 9 / 8 * M) {i : Nat} (hi : i < n) :
    |fl (flGhost fl x n (i + 1) - flGhost fl x n i) - leftGap y n i| ≤ 24 / 2 ^ 53 * M ∧
      |fl (flGhost fl x n (i + 1 + 1) - flGhost fl x n (i + 1)) - rightGap y n i| ≤ 24 / 2 ^ 53 * M := by
  have key : ∀ i j, i < n → j < n → |fl (x i - x j) - (y i - y j)| ≤ 15 / 2 ^ 53 * M := by
    intro i j hi hj
    have a1 := abs_le.1 (hx i hi)
    have a2 := abs_le.1 (hx j hj)
    have b1 := abs_le.1 (hy i hi)
    have b2 := abs_le.1 (hy j hj)
    have g : |x i - x j| ≤ 23 / 10 * M := by rw [abs_le]; constructor <;> linarith [a1.1, a1.2, a2.1, a2.2, b1.1, b1.2, b2.1, b2.2]
    have f := abs_le.1 ((hfl.error (x i - x j)).trans (by gcongr : |x i - x j| / 2 ^ 53 ≤ 23 / 10 * M / 2 ^ 53))
    rw [abs_le]; constructor <;> linarith [a1.1, a1.2, a2.1, a2.2, f.1, f.2]
  have a1 := abs_le.1 (hx 0 (by omega))
  have a2 := abs_le.1 (hx 1 (by omega))
  have a3 := abs_le.1 (hx (n - 2) (by omega))
  have a4 := abs_le.1 (hx (n - 1) (by omega))
  have b1 := abs_le.1 (hy 0 (by omega))
  have b2 := abs_le.1 (hy 1 (by omega))
  have b3 := abs_le.1 (hy (n - 2) (by omega))
  have b4 := abs_le.1 (hy (n - 1) (by omega))
  have gP : |x (n - 1) - x 0| ≤ 23 / 10 * M := by rw [abs_le]; constructor <;> linarith [a1.1, a1.2, a4.1, a4.2, b1.1, b1.2, b4.1, b4.2]
  have fP := abs_le.1 ((hfl.error (x (n - 1) - x 0)).trans (by gcongr : |x (n - 1) - x 0| / 2 ^ 53 ≤ 23 / 10 * M / 2 ^ 53))
  constructor
  · rw [leftGap]
    by_cases h0 : i = 0
    · subst h0
      rw [if_pos rfl, flGhost, flGhost, if_neg (by omega), if_neg (by omega), if_pos rfl]
      simp only [Nat.zero_add, Nat.sub_self]
      generalize fl (x (n - 1) - x 0) = P at *
      have g1 : |x (n - 2) - P| ≤ 36 / 10 * M := by
        rw [abs_le]; constructor <;> linarith [a1.1, a1.2, a4.1, a4.2, b1.1, b1.2, b4.1, b4.2, a3.1, a3.2, b3.1, b3.2, fP.1, fP.2]
      have f1 := abs_le.1 ((hfl.error (x (n - 2) - P)).trans (by gcongr : |x (n - 2) - P| / 2 ^ 53 ≤ 36 / 10 * M / 2 ^ 53))
      generalize fl (x (n - 2) - P) = z at *
      have g2 : |x 0 - z| ≤ 24 / 10 * M := by
        rw [abs_le]; constructor <;> linarith [a4.1, a4.2, b4.1, b4.2, a3.1, a3.2, b3.1, b3.2, fP.1, fP.2, f1.1, f1.2]
      have f2 := abs_le.1 ((hfl.error (x 0 - z)).trans (by gcongr : |x 0 - z| / 2 ^ 53 ≤ 24 / 10 * M / 2 ^ 53))
      rw [abs_le]; constructor <;> linarith [a4.1, a4.2, a3.1, a3.2, fP.1, fP.2, f1.1, f1.2, f2.1, f2.2]
    · rw [if_neg h0, flGhost, flGhost, if_neg (by omega), if_neg (by omega), if_neg h0, if_neg (by omega), show i + 1 - 1 = i by omega]
      have := abs_le.1 (key i (i - 1) hi (by omega))
      rw [abs_le]; constructor <;> linarith [this.1, this.2]
  · rw [rightGap]
    by_cases h0 : i = n - 1
    · subst h0
      rw [if_pos rfl, flGhost, flGhost, if_neg (by omega), if_pos (by omega), if_neg (by omega), if_neg (by omega),
        show n - 1 + 1 - 1 = n - 1 by omega]
      generalize fl (x (n - 1) - x 0) = P at *
      have g1 : |x 1 + P| ≤ 36 / 10 * M := by
        rw [abs_le]; constructor <;> linarith [a1.1, a1.2, a4.1, a4.2, b1.1, b1.2, b4.1, b4.2, a2.1, a2.2, b2.1, b2.2, fP.1, fP.2]
      have f1 := abs_le.1 ((hfl.error (x 1 + P)).trans (by gcongr : |x 1 + P| / 2 ^ 53 ≤ 36 / 10 * M / 2 ^ 53))
      generalize fl (x 1 + P) = z at *
      have g2 : |z - x (n - 1)| ≤ 24 / 10 * M := by
        rw [abs_le]; constructor <;> linarith [a1.1, a1.2, b1.1, b1.2, a2.1, a2.2, b2.1, b2.2, fP.1, fP.2, f1.1, f1.2]
      have f2 := abs_le.1 ((hfl.error (z - x (n - 1))).trans (by gcongr : |z - x (n - 1)| / 2 ^ 53 ≤ 24 / 10 * M / 2 ^ 53))
      rw [abs_le]; constructor <;> linarith [a1.1, a1.2, a2.1, a2.2, fP.1, fP.2, f1.1, f1.2, f2.1, f2.2]
    · rw [if_neg h0, flGhost, flGhost, if_neg (by omega), if_neg (by omega), if_neg (by omega), if_neg (by omega),
        show i + 1 + 1 - 1 = i + 1 by omega, show i + 1 - 1 = i by omega]
      have := abs_le.1 (key (i + 1) i (by omega) hi)
      rw [abs_le]; constructor <;> linarith [this.1, this.2]

theorem sorted_range {x : Nat → Rat} (hx : ∀ i, i + 1 < n → x i < x (i + 1)) : isSorted ((List.range n).map x) = true := by
  rw [isSorted_iff]
  intro i j hij
  induction j, hij using Nat.le_induction with
  | base => intro _; exact le_refl _
  | succ j _ ih =>
    intro hj
    have hj' : j + 1 < n := by simpa using hj
    have := ih (by simp; omega)
    simp only [List.getElem_map, List.getElem_range] at this ⊢
    exact this.trans (hx j hj').le

theorem rounded_generate (hab : a < b) (hn : 2 ≤ n) (hn2 : n < 2 ^ 31)
    (hx : ∀ i, i + 1 < n → flMeshPoint fl a b dis n i < flMeshPoint fl a b dis n (i + 1)) :
    RoundedHeat.generate fl ((BitVec.ofNat 64 n).truncate 32) a b dis = .ok ((List.range n).map (flMeshPoint fl a b dis n)) := by
  have hI : ((BitVec.ofNat 64 n).truncate 32).toInt = (n : Int) := by
    rw [BitVec.toInt_eq_toNat_cond]
    simp only [BitVec.truncate_eq_setWidth, BitVec.toNat_setWidth, BitVec.toNat_ofNat]
    rw [Nat.mod_eq_of_lt (show n < 2 ^ 64 by omega), Nat.mod_eq_of_lt (show n < 2 ^ 32 by omega), if_pos (by omega)]
  have hc : ((((n : Int) - 1 : Int)) : Rat) = ((n - 1 : Nat) : Rat) := by
    rw [Nat.cast_sub (by omega)]; push_cast; ring
  have hp : ((List.range n).map (fun (i : Nat) => fl (a + fl ((i : Rat) * fl (fl (b - a) / ((n - 1 : Nat) : Rat)))))).mapIdx
      (fun i x => if 1 ≤ i ∧ (i : Int) < (n : Int) - 1 then fl (x + fl (dis i * fl (fl (b - a) / ((n - 1 : Nat) : Rat)))) else x) =
      (List.range n).map (flMeshPoint fl a b dis n) := by
    refine List.ext_getElem (by simp) ?_
    intro i h1 h2
    simp only [List.getElem_mapIdx, List.getElem_map, List.getElem_range, flMeshPoint]
    by_cases h : 1 ≤ i ∧ i + 1 < n
    · rw [if_pos ⟨h.1, by omega⟩, if_pos h]
    · rw [if_neg (by omega), if_neg h]
  have h1 : decide (1 < (n : Int)) = true := by simp; omega
  simp only [RoundedHeat.generate, hI, h1, Res.guardAbort_true, Res.ok_bind, hab, decide_true, Int.toNat_natCast, hc, hp, sorted_range hx]

theorem rounded_extrapolate {x : Nat → Rat} (hx : ∀ i, i + 1 < n → x i < x (i + 1)) (hn : 2 ≤ n) :
    RoundedHeat.extrapolateLeft fl 1 ((List.range n).map x) = .ok [fl (x (n - 2) - fl (x (n - 1) - x 0))] ∧
      RoundedHeat.extrapolateRight fl 1 ((List.range n).map x) = .ok [fl (x 1 + fl (x (n - 1) - x 0))] := by
  have hs := sorted_range hx
  have hlen : decide (1 < ((List.range n).map x).length) = true := by simp; omega
  have hper : RoundedHeat.period fl ((List.range n).map x) = .ok (fl (x (n - 1) - x 0)) := by
    have h1 : ((List.range n).map x).getLast? = some (x (n - 1)) := by
      rw [List.getLast?_eq_getElem?]
      simp [List.getElem?_range (show n - 1 < n by omega)]
    have h2 : ((List.range n).map x).head? = some (x 0) := by
      rw [List.head?_eq_getElem?]
      simp [List.getElem?_range (show 0 < n by omega)]
    rw [RoundedHeat.period, h1, h2]
  have hl : (((List.range n).map x).reverse.drop 1).take 1 = [x (n - 2)] := by
    refine List.ext_getElem (by simp; omega) ?_
    intro i h1 h2
    have : i = 0 := by simpa using h2
    subst this
    simp
    rw [show n - 1 - 1 = n - 2 by omega]
  have hr : (((List.range n).map x).drop 1).take 1 = [x 1] := by
    refine List.ext_getElem (by simp; omega) ?_
    intro i h1 h2
    have : i = 0 := by simpa using h2
    subst this
    simp
  constructor
  · rw [RoundedHeat.extrapolateLeft, hlen, hs]
    simp only [Res.guardAbort_true, Res.ok_bind, Nat.zero_lt_one, if_true, hper, hl, List.map_cons, List.map_nil,
      List.reverse_cons, List.reverse_nil, List.nil_append]
  · rw [RoundedHeat.extrapolateRight, hlen, hs]
    simp only [Res.guardAbort_true, Res.ok_bind, Nat.zero_lt_one, if_true, hper, hr, List.map_cons, List.map_nil]

theorem ghosted_points (t : Dim) {z : Nat → Rat} (hz : ∀ i, i < n + 1 → z i < z (i + 1)) (hn : 2 ≤ n) (hn2 : n + 2 < 2 ^ 63) :
    ∃ u : NonUniform Dim Rat, NonUniform.initGhosted t ((List.range n).map (fun i => z (i + 1))) [z 0] [z (n + 1)] =
        .ok (u, seg t 1 (n + 1), seg t 0 (n + 2), seg t 0 1, seg t (n + 1) (n + 2)) ∧
      (∀ i, i < n + 2 → u.coordinate (el t i) = .ok (z i)) := by
  have hlist : [z 0] ++ (List.range n).map (fun i => z (i + 1)) ++ [z (n + 1)] = (List.range (n + 2)).map z := by
    refine List.ext_getElem (by simp) ?_
    intro i h1 h2
    have hi : i < n + 2 := by simpa using h2
    simp only [List.getElem_map, List.getElem_range]
    by_cases h0 : i = 0
    · subst h0; simp
    · by_cases h3 : i = n + 1
      · subst h3
        rw [List.getElem_append_right (by simp)]
        simp
      · rw [List.getElem_append_left (by simp; omega), List.getElem_append_right (by simp; omega)]
        simp
        rw [show i - 1 + 1 = i by omega]
  have hs : isSorted ([z 0] ++ (List.range n).map (fun i => z (i + 1)) ++ [z (n + 1)]) = true := by
    rw [hlist]; exact sorted_range (fun i hi => hz i (by omega))
  have h1 : ((List.range n).map (fun i => z (i + 1))).isEmpty = false := by
    rw [List.isEmpty_eq_false_iff]
    intro h
    have := congrArg List.length h
    simp at this; omega
  obtain ⟨d1, d2, d3, d4, d5, d6⟩ := ghost_domains t 1 n 1 (by omega)
  have href : (Elem.createReference t : Elem Dim) = el t 0 := rfl
  refine ⟨⟨(List.range (n + 2)).map z, el t 0⟩, ?_, ?_⟩
  · simp only [NonUniform.initGhosted, NonUniform.mk', h1, Bool.not_false, Res.guardAbort_true, Res.ok_bind, hs, if_true, href,
      List.length_map, List.length_range, List.length_cons, List.length_nil, Nat.zero_add]
    rw [← vec, ← vec, d1, Res.ok_bind, d2, Res.ok_bind, d3, Res.ok_bind, d4, Res.ok_bind, d5, Res.ok_bind, d6, Res.ok_bind,
      hlist, show n + 1 + 1 = n + 2 by omega, show 1 + n = n + 1 by omega]
    rfl
  · intro i hi
    rw [← href, nu_coordinate_ok t _ (by omega) (by simpa using hi)]
    simp

/-- Specification: `x` are the displaced points, up to rounding. -/
def DisplacedNear (a b : Rat) (dis : Nat → Rat) (n : Nat) (x : Nat → Rat) : Prop :=
  (∀ i, i + 1 < n → x i < x (i + 1)) ∧ ∀ i, i < n → |x i - meshPoint a b dis n i| ≤ 6 / 2 ^ 53 * (|a| + |b|)

/-- Specification: `l` and `r` are the distances between the displaced points, up to rounding. -/
def GapsNear (a b : Rat) (dis : Nat → Rat) (n : Nat) (l r : Nat → Rat) : Prop :=
  ∀ i, i < n → 0 < l i ∧ 0 < r i ∧ |l i - leftGap (meshPoint a b dis n) n i| ≤ 24 / 2 ^ 53 * (|a| + |b|) ∧
    |r i - rightGap (meshPoint a b dis n) n i| ≤ 24 / 2 ^ 53 * (|a| + |b|)

/-- Specification: `m` is the greatest of the `f i`, up to rounding. -/
def GreatestNear (n : Nat) (f : Nat → Rat) (m : Rat) : Prop :=
  (∀ i, i < n → f i ≤ (1 + 4 / 2 ^ 53) * m) ∧ ∃ i, i < n ∧ m ≤ (1 + 4 / 2 ^ 53) * f i

theorem displaced_near (hfl : RoundsAll fl) (t : Dim) (hab : a < b) (hn : 2 ≤ n) (hn2 : n < 2 ^ 31)
    (hd : ∀ i, 1 ≤ i → i + 1 < n → |dis i| ≤ 1 / 8) (hr : |a| + |b| ≤ 2 ^ 46 * gap a b n) :
    ∃ (pts pre post : List Rat) (u : NonUniform Dim Rat) (x l r : Nat → Rat) (m : Rat),
      RoundedHeat.generate fl ((BitVec.ofNat 64 n).truncate 32) a b dis = .ok pts ∧
      RoundedHeat.extrapolateLeft fl 1 pts = .ok pre ∧ RoundedHeat.extrapolateRight fl 1 pts = .ok post ∧
      NonUniform.initGhosted t pts pre post = .ok (u, seg t 1 (n + 1), seg t 0 (n + 2), seg t 0 1, seg t (n + 1) (n + 2)) ∧
      SamplerNear fl (RoundedHeat.nonUniformSampler fl u) t n x l r l r m ∧ DisplacedNear a b dis n x ∧ GapsNear a b dis n l r ∧
      GreatestNear n (fun i => 1 / (l i * r i)) m ∧ m ≤ 41 / 10 * (1 / gap a b n ^ 2) := by
  have hg := gap_pos hab hn
  have hM : 0 ≤ |a| + |b| := by positivity
  obtain ⟨x, ex⟩ : ∃ x, x = flMeshPoint fl a b dis n := ⟨_, rfl⟩
  have hx : ∀ i, i < n → |x i - meshPoint a b dis n i| ≤ 6 / 2 ^ 53 * (|a| + |b|) := fun i hi => by
    rw [ex]; exact meshPoint_error hfl hab hn hd hi
  have hy : ∀ i, i < n → |meshPoint a b dis n i| ≤ 9 / 8 * (|a| + |b|) := fun i hi => (meshPoint_size hab hn hd hi).2.2.2
  obtain ⟨z, ez⟩ : ∃ z, z = flGhost fl x n := ⟨_, rfl⟩
  have he : ∀ i, i < n → |fl (z (i + 1) - z i) - leftGap (meshPoint a b dis n) n i| ≤ 24 / 2 ^ 53 * (|a| + |b|) ∧
      |fl (z (i + 1 + 1) - z (i + 1)) - rightGap (meshPoint a b dis n) n i| ≤ 24 / 2 ^ 53 * (|a| + |b|) := fun i hi => by
    rw [ez]; exact ghost_gap_error hfl hn hM hx hy hi
  have hhalf : ∀ i, i < n → 1 / 2 * gap a b n ≤ fl (z (i + 1) - z i) ∧ 1 / 2 * gap a b n ≤ fl (z (i + 1 + 1) - z (i + 1)) := by
    intro i hi
    obtain ⟨e1, e2⟩ := he i hi
    obtain ⟨g1, g2⟩ := meshGaps hab hn hd i
    rw [abs_le] at e1 e2
    constructor <;> linarith [e1.1, e2.1]
  have hfl0 : fl 0 = 0 := by simpa using fl_nat hfl (show 0 ≤ 2 ^ 53 by norm_num)
  have pos_of : ∀ d : Rat, 1 / 2 * gap a b n ≤ fl d → 0 < d := by
    intro d h
    by_contra hd
    have := hfl.mono _ _ (not_lt.1 hd)
    rw [hfl0] at this
    linarith
  have hz : ∀ i, i < n + 1 → z i < z (i + 1) := by
    intro i hi
    by_cases h : i < n
    · have := pos_of _ (hhalf i h).1
      linarith
    · have := pos_of _ (hhalf (n - 1) (by omega)).2
      rw [show n - 1 + 1 = i by omega] at this
      linarith
  have zx : ∀ i, i < n → z (i + 1) = x i := by
    intro i hi
    rw [ez, flGhost, if_neg (by omega), if_neg (by omega), show i + 1 - 1 = i by omega]
  have hxlt : ∀ i, i + 1 < n → x i < x (i + 1) := by
    intro i hi
    rw [← zx i (by omega), ← zx (i + 1) hi]
    exact hz _ (by omega)
  obtain ⟨p1, p2⟩ := rounded_extrapolate (fl := fl) hxlt hn
  obtain ⟨u, u1, u2⟩ := ghosted_points t hz hn (by omega)
  have hmap : (List.range n).map (fun i => z (i + 1)) = (List.range n).map x :=
    List.map_congr_left (fun i hi => zx i (List.mem_range.1 hi))
  have z0 : z 0 = fl (x (n - 2) - fl (x (n - 1) - x 0)) := by rw [ez, flGhost, if_pos rfl]
  have zn : z (n + 1) = fl (x 1 + fl (x (n - 1) - x 0)) := by rw [ez, flGhost, if_neg (by omega), if_pos rfl]
  rw [hmap, z0, zn] at u1
  have hgen := rounded_generate (fl := fl) hab hn hn2 (dis := dis) (fun i hi => by rw [← ex]; exact hxlt i hi)
  rw [← ex] at hgen
  have hl : ∀ i, i < n → (RoundedHeat.nonUniformSampler fl u).left (el t (i + 1)) = .ok (fl (z (i + 1) - z i)) := by
    intro i hi
    have := (nonUniform_sampler u2 (i := i + 1) (by omega) (by omega)).2.1
    rw [show i + 1 - 1 = i by omega] at this
    have h' : u.distanceAtLeft (el t (i + 1)) = .ok (z (i + 1) - z i) := this
    simp only [RoundedHeat.nonUniformSampler, h', Res.ok_bind]
  have hr' : ∀ i, i < n → (RoundedHeat.nonUniformSampler fl u).right (el t (i + 1)) = .ok (fl (z (i + 1 + 1) - z (i + 1))) := by
    intro i hi
    have h' : u.distanceAtRight (el t (i + 1)) = .ok (z (i + 1 + 1) - z (i + 1)) :=
      (nonUniform_sampler u2 (i := i + 1) (by omega) (by omega)).2.2
    simp only [RoundedHeat.nonUniformSampler, h', Res.ok_bind]
  obtain ⟨l, el'⟩ : ∃ l : Nat → Rat, l = fun i => fl (z (i + 1) - z i) := ⟨_, rfl⟩
  obtain ⟨r, er'⟩ : ∃ r : Nat → Rat, r = fun i => fl (z (i + 1 + 1) - z (i + 1)) := ⟨_, rfl⟩
  have hlr : ∀ i, i < n → 1 / 2 * gap a b n ≤ l i ∧ 1 / 2 * gap a b n ≤ r i := fun i hi => by rw [el', er']; exact hhalf i hi
  have lpos : ∀ i, i < n → 0 < l i := fun i hi => by linarith [(hlr i hi).1]
  have rpos : ∀ i, i < n → 0 < r i := fun i hi => by linarith [(hlr i hi).2]
  obtain ⟨m, m1, m2⟩ := rounded_invMax hfl (S := RoundedHeat.nonUniformSampler fl u) (t := t) (n := n) (l := l) (r := r) (by omega) (by omega)
    (fun i hi => ⟨⟨by rw [hl i hi, el'], lpos i hi⟩, by rw [hr' i hi, er'], rpos i hi⟩)
  have u3 := up_le 3 (by norm_num)
  have near : ∀ i, i < n → 1 / (l i * r i) ≤ (1 + 4 / 2 ^ 53) * fl (1 / fl (l i * r i)) ∧
      fl (1 / fl (l i * r i)) ≤ (1 + 4 / 2 ^ 53) * (1 / (l i * r i)) := by
    intro i hi
    have q : 0 < 1 / (l i * r i) := by have := lpos i hi; have := rpos i hi; positivity
    have k : |_| ≤ _ := fl_inv_near hfl (lpos i hi) (rpos i hi)
    rw [abs_of_pos q] at k
    have k' : |fl (1 / fl (l i * r i)) - 1 / (l i * r i)| ≤ 32 / 10 / 2 ^ 53 * (1 / (l i * r i)) :=
      k.trans (mul_le_mul_of_nonneg_right (by norm_num at u3 ⊢; linarith) q.le)
    rw [abs_le] at k'
    generalize 1 / (l i * r i) = Q at *
    norm_num at k' ⊢
    constructor <;> linarith [k'.1, k'.2]
  have gn : GreatestNear n (fun i => 1 / (l i * r i)) m := by
    obtain ⟨k1, i, hi, k2⟩ := m2
    refine ⟨fun j hj => (near j hj).1.trans (mul_le_mul_of_nonneg_left (k1 j hj) (by norm_num)), i, hi, ?_⟩
    rw [k2]; exact (near i hi).2
  have mpos : 0 < m := by
    obtain ⟨-, i, hi, k2⟩ := m2
    rw [k2]
    have := lpos i hi
    have := rpos i hi
    exact (fl_inv_near hfl (lpos i hi) (rpos i hi)).pos (by norm_num) (by positivity)
  refine ⟨_, _, _, u, x, l, r, m, hgen, p1, p2, u1, ⟨fun i hi => ?_, fun i hi => by rw [hl i hi, el'], fun i hi => by rw [hr' i hi, er'],
    lpos, rpos, fun i _ => (Near.refl _).mono (by norm_num), fun i _ => (Near.refl _).mono (by norm_num), mpos, gn.1, fun m' hm' => ?_⟩,
    ⟨hxlt, hx⟩, fun i hi => ⟨lpos i hi, rpos i hi, by rw [el']; exact (he i hi).1, by rw [er']; exact (he i hi).2⟩, gn, ?_⟩
  · have := (nonUniform_sampler u2 (i := i + 1) (by omega) (by omega)).1
    rw [zx i hi] at this
    exact this
  · have : m' = m := by
      obtain ⟨k1, i, hi, k2⟩ := m2
      obtain ⟨j1, j, hj, j2⟩ := hm'
      exact le_antisymm (j2 ▸ k1 j hj) (k2 ▸ j1 i hi)
    rw [this]; exact (Near.refl _).mono (by norm_num)
  · obtain ⟨i, hi, k⟩ := gn.2
    have hq : 1 / (l i * r i) ≤ 4 * (1 / gap a b n ^ 2) := by
      have : 1 / 2 * gap a b n * (1 / 2 * gap a b n) ≤ l i * r i :=
        mul_le_mul (hlr i hi).1 (hlr i hi).2 (by positivity) (lpos i hi).le
      calc 1 / (l i * r i) ≤ 1 / (1 / 2 * gap a b n * (1 / 2 * gap a b n)) := one_div_le_one_div_of_le (by positivity) this
        _ = _ := by field_simp; norm_num
    have q0 : 0 < 1 / gap a b n ^ 2 := by positivity
    simp only at k
    generalize 1 / (l i * r i) = Q at *
    generalize 1 / gap a b n ^ 2 = W at *
    norm_num at k ⊢
    linarith

end points

/-- What is asked of the parameters of `/repo/examples/non_uniform_heat_equation.cpp`: as for C77, with displacements between
-1/8 and 1/8 (the program draws them between the `double`s nearest to -1/10 and 1/10); the distance between equally spaced
points is at least 2^-46 times the size of the coordinates, and the number of steps is far from the limits of `double`. -/
structure RoundedMeshSetting (p : Params Rat) (disX disY : Nat → Rat) (nx ny : Nat) : Prop where
  xs : p.xStart < p.xEnd
  ys : p.yStart < p.yEnd
  ts : p.startTime < p.endTime
  kxp : 0 < p.kx
  kyp : 0 < p.ky
  enx : p.nx = BitVec.ofNat 64 nx
  eny : p.ny = BitVec.ofNat 64 ny
  x2 : 2 ≤ nx
  y2 : 2 ≤ ny
  xb : nx < 2 ^ 31
  yb : ny < 2 ^ 31
  dx : ∀ i, 1 ≤ i → i + 1 < nx → |disX i| ≤ 1 / 8
  dy : ∀ i, 1 ≤ i → i + 1 < ny → |disY i| ≤ 1 / 8
  rx : |p.xStart| + |p.xEnd| ≤ 2 ^ 46 * gap p.xStart p.xEnd nx
  ry : |p.yStart| + |p.yEnd| ≤ 2 ^ 46 * gap p.yStart p.yEnd ny
  steps : p.endTime - p.startTime ≤ 2 ^ 46 * stableStep p.kx (gap p.xStart p.xEnd nx) p.ky (gap p.yStart p.yEnd ny)

section

variable {p : Params Rat} {disX disY : Nat → Rat} {nx ny : Nat}

/-- `main` ends, whatever the rounding, the orders of the kernels and the displacements.  The points and their distances are the
displaced ones up to rounding; the number of steps is that of the stability condition for these distances, up to rounding; the
temperatures are those of the scheme with these distances, up to rounding errors relative to the largest initial temperature;
and they are between the lowest and the highest initial one, with the same tolerance. -/
theorem C84_non_uniform (hfl : RoundsAll fl) (h : RoundedMeshSetting p disX disY nx ny) (temp : Rat → Rat → Rat) (junk : Nat → Rat)
    (order : List (List I64)) (ho : order.Perm (Support.policy [BitVec.ofNat 64 nx, BitVec.ofNat 64 ny])) (orders : Nat → Orders)
    (hos : ∀ k, OrdersOk nx ny (orders k)) :
    ∃ mem v, ∃ (N : Nat) (xs lx rx ys ly ry : Nat → Rat) (mx my : Rat), ∃ u : Nat → Nat → Rat,
      RoundedHeat.mainNonUniform fl p disX disY temp junk order orders = .ok (mem, v) ∧
      DisplacedNear p.xStart p.xEnd disX nx xs ∧ DisplacedNear p.yStart p.yEnd disY ny ys ∧
      GapsNear p.xStart p.xEnd disX nx lx rx ∧ GapsNear p.yStart p.yEnd disY ny ly ry ∧
      GreatestNear nx (fun i => 1 / (lx i * rx i)) mx ∧ GreatestNear ny (fun j => 1 / (ly j * ry j)) my ∧
      0 < N ∧ (1 - 60 / 2 ^ 53) * ((p.endTime - p.startTime) * (2 * (p.kx * mx + p.ky * my))) ≤ N ∧
      (N : Rat) < (1 + 60 / 2 ^ 53) * ((p.endTime - p.startTime) * (2 * (p.kx * mx + p.ky * my))) + 1 ∧
      (∀ i j, i < nx → j < ny →
        View.get mem v [[(Dim.x, BitVec.ofNat 64 (i + 1))], [(Dim.y, BitVec.ofNat 64 (j + 1))]] = .ok (u i j)) ∧
      (∀ V, (∀ i j, i < nx → j < ny → |temp (xs i) (ys j)| ≤ V) → ∀ i j, i < nx → j < ny →
        |u i j - (meshStep p.kx p.ky (timeStepOf p N) lx rx ly ry nx ny)^[N] (fun i j => temp (xs i) (ys j)) i j| ≤ heatTol N * V) ∧
      ∀ cold hot V, |cold| ≤ V → |hot| ≤ V →
        (∀ i j, i < nx → j < ny → cold ≤ temp (xs i) (ys j) ∧ temp (xs i) (ys j) ≤ hot) → ∀ i j, i < nx → j < ny →
          cold - heatTol N * V ≤ u i j ∧ u i j ≤ hot + heatTol N * V := by
  have hx := h.x2; have hy := h.y2; have hxb := h.xb; have hyb := h.yb
  have g1 := gap_pos h.xs h.x2
  have g2 := gap_pos h.ys h.y2
  have ht : 0 < p.endTime - p.startTime := sub_pos.2 h.ts
  obtain ⟨px, prx, pox, ux, xs, lx, rx, mx, x1, x2, x3, x4, sX, x5, x6, x7, x8⟩ := displaced_near hfl Dim.x h.xs hx hxb h.dx h.rx
  obtain ⟨py, pry, poy, uy, ys, ly, ry, my, y1, y2, y3, y4, sY, y5, y6, y7, y8⟩ := displaced_near hfl Dim.y h.ys hy hyb h.dy h.ry
  have kmx := mul_pos h.kxp sX.mpos
  have kmy := mul_pos h.kyp sY.mpos
  have eR : (p.endTime - p.startTime) * (2 * (p.kx * mx + p.ky * my)) =
      (p.endTime - p.startTime) / (1 / 2 / (p.kx * mx + p.ky * my)) := by field_simp
  have hRb : (p.endTime - p.startTime) * (2 * (p.kx * mx + p.ky * my)) ≤ 2 ^ 49 := by
    have hs := h.steps
    rw [stableStep] at hs
    have q1 : p.kx * mx ≤ 41 / 10 * (p.kx / gap p.xStart p.xEnd nx ^ 2) := by
      have := mul_le_mul_of_nonneg_left x8 h.kxp.le
      rw [show p.kx * (41 / 10 * (1 / gap p.xStart p.xEnd nx ^ 2)) = 41 / 10 * (p.kx / gap p.xStart p.xEnd nx ^ 2) by ring] at this
      exact this
    have q2 : p.ky * my ≤ 41 / 10 * (p.ky / gap p.yStart p.yEnd ny ^ 2) := by
      have := mul_le_mul_of_nonneg_left y8 h.kyp.le
      rw [show p.ky * (41 / 10 * (1 / gap p.yStart p.yEnd ny ^ 2)) = 41 / 10 * (p.ky / gap p.yStart p.yEnd ny ^ 2) by ring] at this
      exact this
    have k1 := div_pos h.kxp (pow_pos g1 2)
    have k2 := div_pos h.kyp (pow_pos g2 2)
    have hS : 0 < 2 * (p.kx / gap p.xStart p.xEnd nx ^ 2 + p.ky / gap p.yStart p.yEnd ny ^ 2) := by linarith
    rw [mul_one_div, le_div_iff₀ hS] at hs
    have := mul_le_mul_of_nonneg_left (show 2 * (p.kx * mx + p.ky * my) ≤
      41 / 10 * (2 * (p.kx / gap p.xStart p.xEnd nx ^ 2 + p.ky / gap p.yStart p.yEnd ny ^ 2)) by linarith) ht.le
    linarith
  have hcells : (nx + 2) * (ny + 2) < 2 ^ 64 := by
    have : (nx + 2) * (ny + 2) ≤ (2 ^ 31 + 1) * (2 ^ 31 + 1) := Nat.mul_le_mul (by omega) (by omega)
    norm_num at this ⊢
    omega
  obtain ⟨mem, v, N, u, a1, a2, a3, a4, a5, a6, a7⟩ := rounded_solve hfl (by omega) (by omega) (by omega) (by omega) hcells h.ts h.kxp
    h.kyp sX sY eR hRb temp junk ho hos
  refine ⟨mem, v, N, xs, lx, rx, ys, ly, ry, mx, my, u, ?_, x5, y5, x6, y6, x7, y7, a2, a3, a4, a5, a6, a7⟩
  rw [RoundedHeat.mainNonUniform, h.enx, h.eny]
  simp only [x1, x2, x3, x4, y1, y2, y3, y4, axis_ok, Res.ok_bind]
  exact a1

/-- The setting of the program: 10 by 100 points between -1 and 1, with the `double`s nearest to 1/10 as displacement. -/
theorem programMesh_setting (hfl : RoundsAll fl) (hX : ∀ i, |disX i| ≤ fl (1 / 10)) (hY : ∀ i, |disY i| ≤ fl (1 / 10)) :
    RoundedMeshSetting (programHeat fl) disX disY 10 100 := by
  have s := programHeat_setting hfl
  have e := hfl.error (1 / 10)
  rw [abs_le] at e
  have e2 : fl (1 / 10) ≤ 1 / 8 := by
    have := e.2
    rw [abs_of_pos (by norm_num : (0 : Rat) < 1 / 10)] at this
    norm_num at this ⊢
    linarith
  refine ⟨s.xs, s.ys, s.ts, s.kxp, s.kyp, s.enx, s.eny, s.x2, s.y2, by norm_num, by norm_num, fun i _ _ => (hX i).trans e2,
    fun i _ _ => (hY i).trans e2, ?_, ?_, ?_⟩
  · norm_num [programHeat, gap]
  · norm_num [programHeat, gap]
  · have h1 := (abs_le.1 (programHeat_ratio hfl)).2
    rw [← div_le_iff₀ s.stable_pos]
    rw [stepRatio] at h1
    norm_num at h1 ⊢
    linarith

/-- The program with equally spaced points as it is, whatever the rounding: 103 steps; the temperatures at the end, which start at 0 or at 9.999, are
between `-10⁻¹⁰` and `9.999 + 10⁻¹⁰`. -/
theorem C84_example (hfl : RoundsAll fl) (temp : Rat → Rat → Rat) (ht : ∀ x y, temp x y = 0 ∨ temp x y = fl (9999 / 1000))
    (junk : Nat → Rat) (order : List (List I64)) (ho : order.Perm (Support.policy [10, 100])) (orders : Nat → Orders)
    (hos : ∀ k, OrdersOk 10 100 (orders k)) :
    ∃ mem v, ∃ (xs ys : Nat → Rat), ∃ u : Nat → Nat → Rat,
      RoundedHeat.mainDistances fl (programHeat fl) temp junk order orders = .ok (mem, v) ∧
      PointsNear (-1) 1 10 xs ∧ PointsNear (-1) 1 100 ys ∧ ∀ i j, i < 10 → j < 100 →
        View.get mem v [[(Dim.x, BitVec.ofNat 64 (i + 1))], [(Dim.y, BitVec.ofNat 64 (j + 1))]] = .ok (u i j) ∧
        |u i j - (heatStep (coefX (programHeat fl) 10 103) (coefY (programHeat fl) 100 103) 10 100)^[103]
          (fun i j => temp (xs i) (ys j)) i j| ≤ 1 / 10 ^ 10 ∧
        -(1 / 10 ^ 10) ≤ u i j ∧ u i j ≤ 9999 / 1000 + 1 / 10 ^ 10 := by
  obtain ⟨mem, v, N, xs, ys, u, m1, -, m2, m3, m4, m5, m6, m7, m8⟩ :=
    C84_uniform hfl (programHeat_setting hfl) temp junk order ho orders hos
  have hr := abs_le.1 (programHeat_ratio hfl)
  obtain rfl : N = 103 := C83_steps m2 m3 (by norm_num at *; linarith [hr.1]) (by norm_num at *; linarith [hr.2])
  have h9 := abs_le.1 (hfl.error (9999 / 1000))
  rw [abs_of_pos (by norm_num)] at h9
  have hV : fl (9999 / 1000) ≤ 10 ∧ 0 ≤ fl (9999 / 1000) := by norm_num at *; constructor <;> linarith [h9.1, h9.2]
  have tol : heatTol 103 * 10 ≤ 1 / 10 ^ 10 - 1 / 10 ^ 11 := by
    have := heatTol_le (N := 103) (by norm_num)
    norm_num at this ⊢
    linarith
  have hb : ∀ x y, 0 ≤ temp x y ∧ temp x y ≤ fl (9999 / 1000) := by
    intro x y
    rcases ht x y with e | e <;> rw [e] <;> constructor <;> linarith [hV.2]
  refine ⟨mem, v, xs, ys, u, m1, m4, m5, fun i j hi hj => ⟨m6 i j hi hj, ?_, ?_⟩⟩
  · refine (m7 10 (fun i j _ _ => ?_) i j hi hj).trans (by linarith)
    rw [abs_of_nonneg (hb _ _).1]
    linarith [(hb (xs i) (ys j)).2, hV.1]
  · have := m8 0 (fl (9999 / 1000)) 10 (by norm_num) (by rw [abs_of_nonneg hV.2]; exact hV.1) (fun i j _ _ => hb _ _) i j hi hj
    norm_num at *
    constructor <;> linarith [this.1, this.2, h9.2]

/-! ## Without resolution -/

def coarseOrders (n : Nat) : Orders :=
  ⟨fun _ => MDSpan.indices [2], fun _ => MDSpan.indices [2], fun _ => MDSpan.indices [BitVec.ofNat 64 n],
    fun _ => MDSpan.indices [BitVec.ofNat 64 n], Support.policy [BitVec.ofNat 64 n, 2]⟩

/-- Four points between 2^53 and 2^53 + 2, where there are two `double`s, by two points between 0 and 1. -/
def coarseHeat : Params Rat := ⟨2 ^ 53, 2 ^ 53 + 2, 4, 1, 0, 1, 2, 1, 0, 1⟩

/-- Only the hypothesis of `RoundedMeshSetting` on the distance between points fails. -/
theorem coarseHeat_setting : coarseHeat.xStart < coarseHeat.xEnd ∧
    ¬ |coarseHeat.xStart| + |coarseHeat.xEnd| ≤ 2 ^ 46 * gap coarseHeat.xStart coarseHeat.xEnd 4 ∧
    |coarseHeat.yStart| + |coarseHeat.yEnd| ≤ 2 ^ 46 * gap coarseHeat.yStart coarseHeat.yEnd 2 ∧
    coarseHeat.endTime - coarseHeat.startTime ≤ 2 ^ 46 * stableStep coarseHeat.kx (gap coarseHeat.xStart coarseHeat.xEnd 4)
      coarseHeat.ky (gap coarseHeat.yStart coarseHeat.yEnd 2) := by decide +kernel

/-- Points that are not distinct once rounded go through the assertions of the program, which then divides by zero and converts
an infinite number of steps to an integer: undefined behaviour. -/
theorem C84_unresolved : RoundedHeat.mainNonUniform round53 coarseHeat (fun _ => 0) (fun _ => 0) (fun _ _ => 1) (fun _ => 0)
    (Support.policy [4, 2]) (fun _ => coarseOrders 4) = .ub := by decide +kernel

/-- The hypotheses hold for the program, with the rounding of `double`. -/
example : RoundedMeshSetting (programHeat round53) (fun i => if i % 2 = 0 then 1 / 10 else -(1 / 16)) (fun _ => 1 / 16) 10 100 := by
  refine programMesh_setting round53_all (fun i => ?_) (fun i => ?_)
  · have : (1 : Rat) / 10 ≤ round53 (1 / 10) := by decide +kernel
    split
    · rwa [abs_of_pos (by norm_num)]
    · rw [abs_neg, abs_of_pos (by norm_num)]
      norm_num at this ⊢; linarith
  · have : (1 : Rat) / 10 ≤ round53 (1 / 10) := by decide +kernel
    rw [abs_of_pos (by norm_num)]
    norm_num at this ⊢; linarith

end

end DDC.Props
