import Verif.Model.RoundedAdvection
import Verif.Lemmas.Advection
import Verif.Lemmas.CubicShift
import Verif.Props.C61b
import Verif.Props.C75b

/-!
# The advection by characteristics, with rounding
-/

namespace DDC.RoundedAdvection

open Tup Spec Props Grid2 Rounded Finset Advection
open One (seg el vec)

variable {fl : Rat → Rat}

/-! ## Splines on the integers change little -/

/-- A cubic spline on the integers. -/
def raw (n : Nat) (c : Nat → Rat) (t : Rat) : Rat := ∑ J ∈ range (n + 3), c J * bspline (intKnot 3) (n + 1) 3 J t

theorem raw_cell {n : Nat} {c : Nat → Rat} {M : Rat} (hM : ∀ J, J < n + 3 → |c J| ≤ M) {z : Nat} (hz : z ≤ n) {s t : Rat}
    (hs0 : (z : Rat) ≤ s) (hs1 : s < z + 1) (ht0 : (z : Rat) ≤ t) (ht1 : t ≤ z + 1) (htn : t < n + 1) :
    |raw n c s - raw n c t| ≤ 6 * M * |s - t| := by
  have hM0 : 0 ≤ M := (abs_nonneg _).trans (hM 0 (by omega))
  have hzn : (z : Rat) ≤ n := by exact_mod_cast hz
  have es : ∀ J, bspline (intKnot 3) (n + 1) 3 J s = cellValue 3 z (s - z) J := fun J =>
    int_bspline hs0 hs1 (by linarith) J
  have et : ∀ J, bspline (intKnot 3) (n + 1) 3 J t = cellValue 3 z (t - z) J := fun J => by
    rcases lt_or_eq_of_le ht1 with h | h
    · exact int_bspline ht0 h htn J
    · rw [int_bspline (c := z + 1) (by push_cast; linarith) (by push_cast; linarith) htn J, h, add_sub_cancel_left,
        cellValue_knot (by norm_num)]
      push_cast
      rw [sub_self]
  have hl := cellValue_lip (p := 3) (c := z) (N := n + 4) (by omega) (o := s - z) (o' := t - z) (by linarith) (by linarith)
    (by linarith) (by linarith)
  rw [raw, raw, ← sum_sub_distrib]
  refine (abs_sum_le_sum_abs _ _).trans ?_
  calc ∑ J ∈ range (n + 3), |c J * bspline (intKnot 3) (n + 1) 3 J s - c J * bspline (intKnot 3) (n + 1) 3 J t|
      ≤ ∑ J ∈ range (n + 3), M * |cellValue 3 z (s - z) J - cellValue 3 z (t - z) J| := by
        refine sum_le_sum fun J hJ => ?_
        rw [es, et, ← mul_sub, abs_mul]
        exact mul_le_mul_of_nonneg_right (hM J (mem_range.1 hJ)) (abs_nonneg _)
    _ ≤ ∑ J ∈ range (n + 4), M * |cellValue 3 z (s - z) J - cellValue 3 z (t - z) J| :=
        sum_le_sum_of_subset_of_nonneg (range_subset_range.2 (by omega)) fun _ _ _ => mul_nonneg hM0 (abs_nonneg _)
    _ ≤ M * (2 * (3 : Nat) * |s - z - (t - z)|) := by
        rw [← mul_sum]
        exact mul_le_mul_of_nonneg_left hl hM0
    _ = _ := by rw [sub_sub_sub_cancel_right]; push_cast; ring

theorem raw_lip {n : Nat} {c : Nat → Rat} {M : Rat} (hM : ∀ J, J < n + 3 → |c J| ≤ M) {s t : Rat} (h0 : 0 ≤ s) (hst : s ≤ t)
    (h1 : t - s < 1) (h2 : t < n + 1) : |raw n c t - raw n c s| ≤ 6 * M * (t - s) := by
  obtain ⟨z, hz⟩ : ∃ z, z = ⌊s⌋₊ := ⟨_, rfl⟩
  have hz0 : (z : Rat) ≤ s := by rw [hz]; exact Nat.floor_le h0
  have hz1 : s < z + 1 := by rw [hz]; exact Nat.lt_floor_add_one s
  have hzn : z ≤ n := by
    have : (z : Rat) < (n + 1 : Nat) := by push_cast; linarith
    have : z < n + 1 := by exact_mod_cast this
    omega
  rw [abs_sub_comm]
  rcases le_or_gt t (z + 1) with h | h
  · have := raw_cell hM hzn hz0 hz1 (hz0.trans hst) h h2
    rwa [abs_sub_comm s t, abs_of_nonneg (sub_nonneg.2 hst)] at this
  · have hz2 : z + 1 ≤ n := by
      have : ((z + 1 : Nat) : Rat) < (n + 1 : Nat) := by push_cast; linarith
      have : z + 1 < n + 1 := by exact_mod_cast this
      omega
    have k1 := raw_cell hM hzn hz0 hz1 (t := (z : Rat) + 1) (by linarith) le_rfl (by linarith)
    have k2 := raw_cell hM hz2 (s := t) (t := (z : Rat) + 1) (by push_cast; linarith) (by push_cast; linarith) (by push_cast; linarith)
      (by push_cast; linarith) (by linarith)
    rw [abs_sub_comm s, abs_of_nonneg (by linarith : (0 : Rat) ≤ z + 1 - s)] at k1
    rw [abs_of_nonneg (by linarith : (0 : Rat) ≤ t - (z + 1))] at k2
    have k3 := abs_sub_le (raw n c s) (raw n c (z + 1)) (raw n c t)
    rw [abs_sub_comm (raw n c (z + 1))] at k3
    linarith

/-- The spline of periodic coefficients on the integers. -/
theorem raw_val {n : Nat} (hn : 3 < n) {c : Nat → Rat} (hc : ∀ i, i < 3 → c (n + i) = c i) {m : Nat} (hm : m < n) {β : Rat}
    (h0 : 0 ≤ β) (h1 : β ≤ 1) : raw n c (m + β) = CubicShift.val n c β m := by
  rw [← CubicShift.value_eq (a := 0) (b := 1) one_pos hn hc hm h0 h1, uniform_splineValue one_pos (by norm_num) (by omega), raw]

theorem raw_end {n : Nat} (hn : 3 < n) {c : Nat → Rat} (hc : ∀ i, i < 3 → c (n + i) = c i) : raw n c n = raw n c 0 := by
  have e1 := raw_val hn hc (m := n - 1) (by omega) (β := 1) zero_le_one le_rfl
  have e2 := raw_val hn hc (m := 0) (by omega) (β := 0) le_rfl zero_le_one
  have h : ((n - 1 : Nat) : Rat) + 1 = n := by exact_mod_cast (by omega : n - 1 + 1 = n)
  rw [h] at e1
  rw [Nat.cast_zero, add_zero] at e2
  have hz : ((n - 1 : Nat) : Int) = -1 + n := by omega
  rw [e1, e2, hz, CubicShift.val_periodic]
  simp only [CubicShift.val, CubicShift.w]
  norm_num

/-- The spline at a position that is known up to whole periods and to an error. -/
theorem raw_near {n : Nat} (hn : 3 < n) {c : Nat → Rat} (hc : ∀ i, i < 3 → c (n + i) = c i) {M : Rat}
    (hM : ∀ J, J < n + 3 → |c J| ≤ M) {e t : Rat} (he : e ≤ 1 / 4) (t0 : 0 ≤ t) (t1 : t ≤ n + e) {z : Int} {β : Rat} (h0 : 0 ≤ β)
    (h1 : β < 1) {m : Int} (hm : |t + m * n - (z + β)| ≤ e) : |raw n c t - CubicShift.val n c β z| ≤ 24 * M * e := by
  have hM0 : 0 ≤ M := (abs_nonneg _).trans (hM 0 (by omega))
  have he0 : 0 ≤ e := (abs_nonneg _).trans hm
  have hMe : 0 ≤ M * e := mul_nonneg hM0 he0
  have hpos : (0 : Int) < n := by omega
  have m0 := Int.emod_nonneg z hpos.ne'
  have m1 := Int.emod_lt_of_pos z hpos
  obtain ⟨μ, hμ⟩ := Int.eq_ofNat_of_zero_le m0
  have hz : z = μ + z / n * n := by rw [← hμ]; exact (Int.emod_add_ediv_mul _ _).symm
  have hμn : μ < n := by omega
  have hz' : (z : Rat) = μ + ((z / n : Int) : Rat) * n := by exact_mod_cast hz
  have ev : CubicShift.val n c β z = raw n c (μ + β) := by
    rw [raw_val hn hc hμn h0 h1.le, hz, CubicShift.periodic_int (fun z => CubicShift.val_periodic n c β z)]
  have hμ1 : (μ : Rat) + 1 ≤ n := by exact_mod_cast hμn
  have hμ0 : (0 : Rat) ≤ μ := Nat.cast_nonneg μ
  have hn4 : (4 : Rat) ≤ n := by exact_mod_cast hn
  obtain ⟨j, hj⟩ : ∃ j : Int, j = z / n - m := ⟨_, rfl⟩
  rw [hz'] at hm
  have hjr : (j : Rat) = ((z / n : Int) : Rat) - m := by rw [hj]; push_cast; ring
  rw [show t + m * n - (μ + ((z / n : Int) : Rat) * n + β) = t - (μ + β) - j * n by rw [hjr]; ring] at hm
  have hm' := abs_le.1 hm
  have hjlo : -2 < j := by
    by_contra h
    have : (j : Rat) ≤ -2 := by exact_mod_cast (not_lt.1 h)
    have : (j : Rat) * n ≤ -2 * n := mul_le_mul_of_nonneg_right this (by linarith)
    linarith
  have hjhi : j < 2 := by
    by_contra h
    have : (2 : Rat) ≤ j := by exact_mod_cast (not_lt.1 h)
    have : 2 * (n : Rat) ≤ j * n := mul_le_mul_of_nonneg_right this (by linarith)
    linarith
  rw [ev]
  have lip : ∀ u v : Rat, 0 ≤ u → 0 ≤ v → u < n + 1 → v < n + 1 → |u - v| < 1 → |raw n c u - raw n c v| ≤ 6 * M * |u - v| := by
    intro u v u0 v0 u1 v1 huv
    rcases le_total u v with h | h
    · rw [abs_sub_comm u v, abs_of_nonneg (sub_nonneg.2 h)] at huv ⊢
      rw [abs_sub_comm]
      exact raw_lip hM u0 h huv v1
    · rw [abs_of_nonneg (sub_nonneg.2 h)] at huv ⊢
      exact raw_lip hM v0 h huv u1
  obtain rfl | rfl | rfl : j = -1 ∨ j = 0 ∨ j = 1 := by omega
  · push_cast at hm'
    have a1 : |t - 0| ≤ e := by rw [sub_zero, abs_of_nonneg t0]; linarith
    have a2 : |(n : Rat) - (μ + β)| ≤ e := by rw [abs_of_nonneg (by linarith)]; linarith
    have k1 := lip t 0 t0 le_rfl (by linarith) (by linarith) (by linarith)
    have k2 := lip n (μ + β) (by linarith) (by linarith) (by linarith) (by linarith) (by linarith)
    rw [raw_end hn hc] at k2
    have k3 := abs_sub_le (raw n c t) (raw n c 0) (raw n c (μ + β))
    have k4 := mul_le_mul_of_nonneg_left a1 (by linarith : 0 ≤ 6 * M)
    have k5 := mul_le_mul_of_nonneg_left a2 (by linarith : 0 ≤ 6 * M)
    linarith
  · push_cast at hm'
    have a1 : |t - (μ + β)| ≤ e := by rw [abs_le]; constructor <;> linarith
    have k1 := lip t (μ + β) t0 (by linarith) (by linarith) (by linarith) (by linarith)
    have k4 := mul_le_mul_of_nonneg_left a1 (by linarith : 0 ≤ 6 * M)
    linarith
  · push_cast at hm'
    have a1 : |t - n| ≤ e := by rw [abs_le]; constructor <;> linarith
    have a2 : |0 - (μ + β)| ≤ 2 * e := by rw [zero_sub, abs_neg, abs_of_nonneg (by linarith)]; linarith
    have k1 := lip t n t0 (by linarith) (by linarith) (by linarith) (by linarith)
    have k2 := lip 0 (μ + β) le_rfl (by linarith) (by linarith) (by linarith) (by linarith)
    rw [raw_end hn hc] at k1
    have k3 := abs_sub_le (raw n c t) (raw n c 0) (raw n c (μ + β))
    have k4 := mul_le_mul_of_nonneg_left a1 (by linarith : 0 ≤ 6 * M)
    have k5 := mul_le_mul_of_nonneg_left a2 (by linarith : 0 ≤ 6 * M)
    linarith

/-! ## The feet of the characteristics -/

/-- The knots, in units of the length of the domain. -/
theorem knots_scale (hfl : RoundsAll fl) {a b : Rat} (hab : a < b) {n : Nat} (hn' : 3 < n) (ha : |a| ≤ 8 * (b - a)) {k : Knots}
    (hk : k = mkKnots fl a b n 3) {N : Rat} (hN : N = n * k.step) :
    0 < N ∧ |N - (b - a)| ≤ 3 / 2 ^ 53 * N ∧ |k.rmax fl - k.rmin fl - N| ≤ 36 / 2 ^ 53 * N ∧ |k.rmin fl| ≤ 9 * N := by
  obtain ⟨q0, q1, q2, q3⟩ := knots_fine (p := 3) hfl hab (show 0 < n by omega)
  rw [← hk] at q0 q1 q2 q3
  have hn4 : (4 : Rat) ≤ n := by exact_mod_cast hn'
  have hD : 0 < b - a := sub_pos.2 hab
  obtain ⟨D, eD⟩ : ∃ D, D = b - a := ⟨_, rfl⟩
  obtain ⟨s, hs⟩ : ∃ s, s = k.step := ⟨_, rfl⟩
  obtain ⟨A, hA⟩ : ∃ A, A = |a| := ⟨_, rfl⟩
  rw [← hs] at hN q0 q1 q2 q3
  rw [← eD] at hD ha q1 ⊢
  rw [← hA] at ha q2 q3
  rw [← hN] at q1 q2
  push_cast at q2 q3
  have h4 : 4 * s ≤ N := by rw [hN]; exact mul_le_mul_of_nonneg_right hn4 q0.le
  have e4 : (9 * 3 + 4 * (n : Rat)) * s = 27 * s + 4 * N := by rw [hN]; ring
  rw [e4] at q2
  have g1 : |N - D| ≤ 201 / 100 / 2 ^ 53 * D := by
    have f1 := abs_le.1 (hfl.error D)
    rw [abs_of_pos hD] at f1
    have f0 : 0 ≤ fl D := fl_nonneg hfl hD.le
    have hn0 : (0 : Rat) < n := by linarith
    have f2 := abs_le.1 (hfl.error (fl D / n))
    rw [abs_of_nonneg (div_nonneg f0 hn0.le)] at f2
    have es : s = fl (fl D / n) := by rw [hs, hk, eD]; rfl
    rw [← es] at f2
    have eN : (n : Rat) * (fl D / n) = fl D := mul_div_cancel₀ _ hn0.ne'
    have f3 := mul_le_mul_of_nonneg_left f2.1 hn0.le
    have f4 := mul_le_mul_of_nonneg_left f2.2 hn0.le
    rw [mul_sub, ← hN, eN] at f3 f4
    rw [mul_neg, ← mul_div_assoc, eN] at f3
    rw [← mul_div_assoc, eN] at f4
    rw [abs_le]
    constructor <;> linarith
  refine ⟨by linarith, g1.trans (by linarith), q2.trans (by linarith), q3.trans (by linarith)⟩

/-- The position of a foot, in steps. -/
theorem position (hfl : RoundsNearest fl) {a b : Rat} (hab : a < b) {n : Nat} (hn' : 3 < n) (hn : n ≤ 35000)
    (ha : |a| ≤ 8 * (b - a)) {k : Knots} (hk : k = mkKnots fl a b n 3) {vx dt : Rat} (hδ : |vx * dt| ≤ 8 * (b - a)) {i : Nat}
    (hi : i < n) {x : Rat} (hx : x = footOf fl vx dt (k.grevillePoint fl i)) :
    |x - k.rmin fl| ≤ 16 * k.length fl ∧ |k.rmin fl| ≤ 16 * k.length fl ∧ 0 < k.step ∧ k.rmin fl < k.rmax fl ∧
      |(k.rmax fl - k.rmin fl) / k.step - n| ≤ n / 2 ^ 47 ∧
      ∀ (z : Rat) (m : Int), k.rmin fl ≤ z → z ≤ k.rmax fl →
        |z + m * (k.rmax fl - k.rmin fl) - x| ≤ 1 / 2 ^ 45 * (k.rmax fl - k.rmin fl) →
        |(z - k.rmin fl) / k.step + m * n - (i - vx * dt / ((b - a) / n))| ≤ n / 2 ^ 43 := by
  have hres : |a| * n ≤ 2 ^ 46 * (b - a) := by
    have h1 : (n : Rat) ≤ 35000 := by exact_mod_cast hn
    have h2 := mul_le_mul ha h1 (Nat.cast_nonneg n) (by linarith : (0 : Rat) ≤ 8 * (b - a))
    linarith
  obtain ⟨hs, hlen, hr⟩ := knots_bounds3 hfl.toRoundsAll hab (show 0 < n by omega) (show n < 2 ^ 31 by omega) (show 3 ≤ 2 ^ 20 by norm_num) hres
  rw [← hk] at hs hlen hr
  have kn : k.n = n := by rw [hk]; rfl
  have kp : k.p = 3 := by rw [hk]; rfl
  obtain ⟨-, -, hpt⟩ := point_bounds hfl (k := k) (by omega) (by omega) hs (by rw [kn]; exact hlen) hr (i := i)
    (by rw [kp, kn]; split <;> omega)
  rw [kn, kp, show grevilleShift 3 = 0 from if_neg (by norm_num), add_zero] at hpt
  obtain ⟨N, hN⟩ : ∃ N, N = n * k.step := ⟨_, rfl⟩
  obtain ⟨N0, g1, g2, g3⟩ := knots_scale hfl.toRoundsAll hab hn' ha hk hN
  have hD : 0 < b - a := sub_pos.2 hab
  have hn4 : (4 : Rat) ≤ n := by exact_mod_cast hn'
  have hn0 : (0 : Rat) < n := by linarith
  have e1 := hfl.error (vx * dt)
  have e2 := hfl.error (k.grevillePoint fl i - fl (vx * dt))
  rw [show fl (k.grevillePoint fl i - fl (vx * dt)) = x from hx.symm] at e2
  obtain ⟨ℓ, hℓ⟩ : ∃ ℓ, ℓ = k.rmax fl - k.rmin fl := ⟨_, rfl⟩
  obtain ⟨R, hR⟩ : ∃ R, R = k.rmin fl := ⟨_, rfl⟩
  obtain ⟨s, hs'⟩ : ∃ s, s = k.step := ⟨_, rfl⟩
  obtain ⟨D, eD⟩ : ∃ D, D = b - a := ⟨_, rfl⟩
  obtain ⟨P, hP⟩ : ∃ P, P = vx * dt := ⟨_, rfl⟩
  obtain ⟨y, hy⟩ : ∃ y, y = k.grevillePoint fl i := ⟨_, rfl⟩
  obtain ⟨w, hw⟩ : ∃ w, w = (i : Rat) * (ℓ / n) := ⟨_, rfl⟩
  have hlenfl : k.length fl = fl ℓ := by rw [hℓ]; rfl
  rw [hlenfl]
  have hmax : k.rmax fl = R + ℓ := by rw [hℓ, hR]; ring
  rw [← hℓ] at g2 hpt ⊢
  rw [← hR] at g3 hpt ⊢
  rw [hmax]
  rw [← hs'] at hs hN ⊢
  rw [← eD] at g1 hD hδ ⊢
  rw [← hP] at hδ e1 e2 ⊢
  rw [← hy] at hpt e2
  rw [← hw] at hpt
  have hℓ0 : 0 < ℓ := by have := (abs_le.1 g2).1; linarith
  have hi0 : (0 : Rat) ≤ i := Nat.cast_nonneg i
  have hi1 : (i : Rat) ≤ n := by exact_mod_cast hi.le
  have hw0 : 0 ≤ w := by rw [hw]; exact mul_nonneg hi0 (div_nonneg hℓ0.le hn0.le)
  have hw1 : w ≤ ℓ := by
    rw [hw]
    calc (i : Rat) * (ℓ / n) ≤ n * (ℓ / n) := mul_le_mul_of_nonneg_right hi1 (div_nonneg hℓ0.le hn0.le)
      _ = ℓ := mul_div_cancel₀ _ hn0.ne'
  have hwi : |w - i * s| ≤ |ℓ - N| := by
    have : w - i * s = (i / n) * (ℓ - N) := by rw [hw, hN]; field_simp
    rw [this, abs_mul, abs_of_nonneg (div_nonneg hi0 hn0.le)]
    exact mul_le_of_le_one_left (abs_nonneg _) ((div_le_one hn0).2 hi1)
  have hflℓ : (1 - 1 / 2 ^ 53) * ℓ ≤ fl ℓ := le_fl hfl.toRoundsAll hℓ0.le
  have a1 := abs_le.1 g1
  have a2 := abs_le.1 g2
  have a3 := abs_le.1 g3
  have a4 := abs_le.1 hδ
  have a5 : |P - fl P| ≤ 9 / 2 ^ 53 * N := by
    rw [abs_sub_comm]; exact e1.trans (by linarith)
  have a5' := abs_le.1 a5
  have a6 : |y - (R + w)| ≤ 29 / 2 ^ 53 * N := hpt.trans (by linarith)
  have a6' := abs_le.1 a6
  have a7 : |y - fl P| ≤ 19 * N := by rw [abs_le]; constructor <;> linarith
  have a8 : |x - (y - fl P)| ≤ 19 / 2 ^ 53 * N := e2.trans (by linarith)
  have a8' := abs_le.1 a8
  have a9 := abs_le.1 (hwi.trans g2)
  have hxR : |x - R| ≤ 10 * ℓ := by rw [abs_le]; constructor <;> linarith
  refine ⟨by linarith, by linarith, hs, by linarith, ?_, ?_⟩
  · have : ℓ / s - n = (ℓ - N) / s := by rw [hN]; field_simp
    rw [this, abs_div, abs_of_pos hs, div_le_iff₀ hs, div_mul_eq_mul_div, ← hN]
    linarith
  · intro z m z1 z2 hz
    have b1 := abs_le.1 hz
    have b2 := abs_le.1 hxR
    have hm : |(m : Rat)| ≤ 12 := by
      have : |(m : Rat)| * ℓ ≤ 12 * ℓ := by
        rw [← abs_of_pos hℓ0, ← abs_mul, abs_of_pos hℓ0, abs_le]
        constructor <;> linarith
      exact le_of_mul_le_mul_right this hℓ0
    have hmℓ : |m * (ℓ - N)| ≤ 12 * (36 / 2 ^ 53 * N) := by
      rw [abs_mul]
      exact mul_le_mul hm g2 (abs_nonneg _) (by norm_num)
    have b3 := abs_le.1 hmℓ
    have hPD : |P * N / D - P| ≤ 8 * (3 / 2 ^ 53 * N) := by
      have : P * N / D - P = P / D * (N - D) := by field_simp
      rw [this, abs_mul]
      refine mul_le_mul ?_ g1 (abs_nonneg _) (by norm_num)
      rw [abs_div, abs_of_pos hD, div_le_iff₀ hD]
      exact hδ
    have b4 := abs_le.1 hPD
    have e : (z - R) / s + m * n - (i - P / (D / n)) = (z - R + m * N - i * s + P * N / D) / s := by
      rw [hN]; field_simp; ring
    rw [e, abs_div, abs_of_pos hs, div_le_iff₀ hs, div_mul_eq_mul_div, ← hN, abs_le]
    constructor <;> linarith

/-- The evaluator at a foot: the value of the spline at the displaced point, or a read out of bounds, and this only if the
displacement is very close to whole cells. -/
theorem foot_value (hfl : RoundsNearest fl) {a b : Rat} (hab : a < b) {n : Nat} (hn' : 3 < n) (hn : n ≤ 35000)
    (ha : |a| ≤ 8 * (b - a)) {k : Knots} (hk : k = mkKnots fl a b n 3) {vx dt : Rat} (hδ : |vx * dt| ≤ 8 * (b - a)) {i : Nat}
    (hi : i < n) (lower upper : Rat → Coefs Rat → Res Rat) {c : Nat → Rat} (hc : ∀ i, i < 3 → c (n + i) = c i) {M : Rat}
    (hM : ∀ J, J < n + 3 → |c J| ≤ M) {q : Int} {β : Rat} (h0 : 0 ≤ β) (h1 : β < 1)
    (hq : vx * dt = -((q : Rat) + β) * ((b - a) / n)) :
    (∃ y, k.eval fl true lower upper (footOf fl vx dt (k.grevillePoint fl i)) (coefsOf (n + 3) c) = .ok y ∧
      |y - CubicShift.val n c β ((i : Int) + q)| ≤ n / 2 ^ 37 * M) ∨
    (k.eval fl true lower upper (footOf fl vx dt (k.grevillePoint fl i)) (coefsOf (n + 3) c) = .ub ∧
      ∃ m : Int, |vx * dt / ((b - a) / n) - m| ≤ n / 2 ^ 42) := by
  have hres : |a| * n ≤ 2 ^ 46 * (b - a) := by
    have h1 : (n : Rat) ≤ 35000 := by exact_mod_cast hn
    have h2 := mul_le_mul ha h1 (Nat.cast_nonneg n) (by linarith [sub_pos.2 hab] : (0 : Rat) ≤ 8 * (b - a))
    linarith [sub_pos.2 hab]
  obtain ⟨p1, p2, p3, p4, p5, p6⟩ := position hfl hab hn' hn ha hk hδ hi rfl
  obtain ⟨z, m, z1, z2, z3, -, hz⟩ := C61_periodic_partial hfl.toRoundsAll hab (show 0 < n by omega) (by omega) (show 0 < 3 by norm_num)
    (by norm_num) hres hk p1 p2 lower upper c hM
  have p6 := p6 z m z1 z2 z3
  have hn4 : (4 : Rat) ≤ n := by exact_mod_cast hn'
  have hn5 : (n : Rat) ≤ 35000 := by exact_mod_cast hn
  have hn0 : (0 : Rat) < n := by linarith
  have hM0 : 0 ≤ M := (abs_nonneg _).trans (hM 0 (by omega))
  have hh : 0 < (b - a) / n := div_pos (sub_pos.2 hab) hn0
  have hd : vx * dt / ((b - a) / n) = -((q : Rat) + β) := by rw [hq, mul_div_cancel_right₀ _ hh.ne']
  have p5' := abs_le.1 p5
  have t0 : 0 ≤ (z - k.rmin fl) / k.step := div_nonneg (by linarith) p3.le
  have t1 : (z - k.rmin fl) / k.step ≤ (k.rmax fl - k.rmin fl) / k.step := by gcongr
  have hin : (i : Rat) - vx * dt / ((b - a) / n) = ((((i : Int) + q : Int)) : Rat) + β := by rw [hd]; push_cast; ring
  rcases hz with ⟨y, ey, hy1, hy2⟩ | ⟨eub, hu1, hu2⟩
  · refine Or.inl ⟨y, ey, ?_⟩
    rw [hin] at p6
    have p6' := abs_le.1 p6
    rcases lt_or_eq_of_le z2 with hlt | heq
    · have k1 := hy1 hlt
      have k2 := raw_near hn' hc hM (e := n / 2 ^ 42) (t := (z - k.rmin fl) / k.step) (by linarith) t0 (by linarith) h0 h1
        (z := (i : Int) + q) (m := m) (p6.trans (by linarith))
      rw [raw] at k2
      have k3 := abs_sub_le y (∑ J ∈ range (n + 3), c J * bspline (intKnot 3) (n + 1) 3 J ((z - k.rmin fl) / k.step))
        (CubicShift.val n c β ((i : Int) + q))
      push_cast at k1
      have k4 : ((3 : Rat) * (3 + 15) / 2 ^ 53 + 3 / 2 ^ 53 + 3 * (n + 1) / 2 ^ 49) * M ≤ n / 2 ^ 39 * M :=
        mul_le_mul_of_nonneg_right (by linarith) hM0
      have k5 : 24 * M * ((n : Rat) / 2 ^ 42) + n / 2 ^ 39 * M ≤ n / 2 ^ 37 * M := by
        rw [show 24 * M * ((n : Rat) / 2 ^ 42) + n / 2 ^ 39 * M = (24 * (n / 2 ^ 42) + n / 2 ^ 39) * M by ring]
        exact mul_le_mul_of_nonneg_right (by linarith) hM0
      linarith
    · have k1 := hy2 heq
      rw [heq] at p6'
      have k2 := raw_near hn' hc hM (e := n / 2 ^ 42) (t := n) (by linarith) hn0.le (by linarith [div_pos hn0 (by norm_num : (0 : Rat) < 2 ^ 42)]) h0 h1
        (z := (i : Int) + q) (m := m) (by rw [abs_le]; constructor <;> linarith)
      rw [raw] at k2
      have k3 := abs_sub_le y (∑ J ∈ range (n + 3), c J * bspline (intKnot 3) (n + 1) 3 J n)
        (CubicShift.val n c β ((i : Int) + q))
      push_cast at k1
      have k4 : ((3 : Rat) * (3 + 15) / 2 ^ 53 + 3 / 2 ^ 53) * M ≤ n / 2 ^ 39 * M :=
        mul_le_mul_of_nonneg_right (by linarith) hM0
      have k5 : 24 * M * ((n : Rat) / 2 ^ 42) + n / 2 ^ 39 * M ≤ n / 2 ^ 37 * M := by
        rw [show 24 * M * ((n : Rat) / 2 ^ 42) + n / 2 ^ 39 * M = (24 * (n / 2 ^ 42) + n / 2 ^ 39) * M by ring]
        exact mul_le_mul_of_nonneg_right (by linarith) hM0
      linarith
  · refine Or.inr ⟨eub, (i : Int) - n - m * n, ?_⟩
    have p6' := abs_le.1 p6
    have t2 : (1 - 1 / 2 ^ 50) * (n : Rat) ≤ (z - k.rmin fl) / k.step := by
      rw [le_div_iff₀ p3]
      linarith
    push_cast
    rw [abs_le]
    constructor <;> linarith

/-! ## Reads of the coefficients -/

/-- Whether a coefficient out of bounds is read does not depend on the coefficients. -/
theorem sum1_ub_iff (p : Nat) (v : Arr Rat) (j : U64) (N : Nat) (c c' : Nat → Rat) :
    sum1 fl p v j (coefsOf N c) = .ub → sum1 fl p v j (coefsOf N c') = .ub := by
  rw [sum1, sum1]
  generalize p + 1 = len
  suffices h : ∀ (lo : Nat) (y y' : Rat), forLoop (fun i y => do
      let c ← coefsOf N c [j + BitVec.ofNat 64 i]
      let w ← v.rd i
      .ok (fl (y + fl (c * w)))) lo len y = .ub → forLoop (fun i y => do
      let c ← coefsOf N c' [j + BitVec.ofNat 64 i]
      let w ← v.rd i
      .ok (fl (y + fl (c * w)))) lo len y' = .ub from h 0 0 0
  induction len with
  | zero => intro lo y y' h; rw [forLoop] at h; cases h
  | succ len ih =>
    intro lo y y' h
    rw [forLoop] at h ⊢
    dsimp only [coefsOf] at h ⊢
    split at h
    · rename_i hlt
      rw [if_pos hlt]
      simp only [Res.ok_bind] at h ⊢
      cases hr : v.rd lo with
      | ok w =>
        rw [hr, Res.ok_bind, Res.ok_bind] at h
        rw [Res.ok_bind, Res.ok_bind]
        exact ih _ _ _ h
      | _ => rw [hr] at h; exact h
    · rename_i hlt
      rw [if_neg hlt]
      rfl

theorem eval_ub {k : Knots} (lower upper lower' upper' : Rat → Coefs Rat → Res Rat) (x : Rat) (N : Nat) (c c' : Nat → Rat) :
    k.eval fl true lower upper x (coefsOf N c) = .ub → k.eval fl true lower' upper' x (coefsOf N c') = .ub := by
  rw [Knots.eval, Knots.eval, if_pos rfl, if_pos rfl, Knots.evalNoBc, Knots.evalNoBc]
  cases k.evalBasis fl (Arr.uninit (k.p + 1)) (wrap fl k x) with
  | ok r =>
    rw [Res.ok_bind, Res.ok_bind]
    exact sum1_ub_iff _ _ _ _ _ _
  | _ => exact id

/-- The coefficients of a line. -/
theorem eval_column {k : Knots} (lower upper lower' upper' : Rat → Coefs Rat → Res Rat) (x : Rat) {C : Mat Rat} {N j : Nat}
    (hr : C.rows = N) (hj : j < C.cols) :
    k.eval fl true lower upper x (Eval.column C j) = k.eval fl true lower' upper' x (coefsOf N fun J => C.val J j) := by
  have h : ∀ i : U64, Eval.column C j [i] = coefsOf N (fun J => C.val J j) [i] := by
    intro i
    rw [Eval.column, coefsOf, Mat.rd, hr]
    simp only [hj, and_true]
  rw [Knots.eval, Knots.eval, if_pos rfl, if_pos rfl, Knots.evalNoBc, Knots.evalNoBc]
  simp only [sum1, h]

/-! ## Loops -/

/-- The evaluation on a mesh. -/
theorem evalMesh_ok {σ : Sched} (hσ : σ.Valid) {k : Knots} {coords coef out : Mat Rat} (hr : coords.rows = out.rows)
    (hc : coords.cols = out.cols) {f : Nat → Nat → Rat}
    (hf : ∀ i j, i < out.rows → j < out.cols →
      k.eval fl true (fun _ _ => .ok 0) (fun _ _ => .ok 0) (coords.val i j) (Eval.column coef j) = .ok (f i j)) :
    ∃ out', evalMesh fl k σ coords coef out = .ok out' ∧ out'.rows = out.rows ∧ out'.cols = out.cols ∧
      ∀ i j, i < out.rows → j < out.cols → out'.val i j = f i j := by
  obtain ⟨b', e, r1, r2, r3⟩ := colLoop_ok hσ (R := out.rows) (C := out.cols)
    (f := fun j => forLoop (fun i out => do
      let x ← coords.rd i j
      let y ← k.eval fl true (fun _ _ => .ok 0) (fun _ _ => .ok 0) x (Eval.column coef j)
      out.wr i j y) 0 out.rows)
    (fun c y r => if r < out.rows then f r c else y r)
    (fun b1 j e1 e2 hj => by
      have := moveLoop (S := fun i _ => (coords.rd i j >>= fun x =>
          k.eval fl true (fun _ _ => .ok 0) (fun _ _ => .ok 0) x (Eval.column coef j)))
        (D := fun i => i) (d := 0) (lo := 0) (n := out.rows) (j := j) (b := b1) (g := fun i => f i j)
        (fun i _ _ => (Nat.zero_add i).symm) (by omega) (by omega)
        (fun i b' _ hi _ _ _ => by
          rw [Mat.rd, if_pos (by omega), Res.ok_bind, hf i j (by omega) hj])
      simp only [bind_assoc] at this
      rw [this, e1, e2]
      congr
      funext r c
      by_cases hc : c = j
      · subst hc
        simp
      · simp [hc]) out rfl rfl
  exact ⟨b', e, r1, r2, fun i j hi hj => by rw [r3 i j hj, if_pos hi]⟩

theorem coordX_ok (k : Knots) {i : Nat} (hi : i < 2 ^ 63) : coordX fl k (el () i) = .ok (k.grevillePoint fl i) := by
  have : (BitVec.ofNat 64 i).toNat = i := by rw [BitVec.toNat_ofNat]; omega
  simp only [coordX, el, uid1, get_cons, if_true, Res.ok_bind, this]

theorem initial_ok {N M : Nat} (hN : N < 2 ^ 63) (hM : M < 2 ^ 63) {coord : Elem Unit → Res Rat} {uy : Uniform Dim Rat}
    {xs ys : Nat → Rat} (hX : ∀ i, i < N → coord (el () i) = .ok (xs i))
    (hY : ∀ j, j < M → uniformCoordinate fl uy (el Dim.y j) = .ok (ys j)) (density : Rat → Rat → Rat) {order : List (List I64)}
    (ho : order.Perm (Support.policy [BitVec.ofNat 64 N, BitVec.ofNat 64 M])) (F : Mat Rat) (hr : F.rows = N) (hc : F.cols = M) :
    ∃ F', Support.runSchedule (Dom.support (seg2 .x .y 0 N 0 M)) (initial fl coord uy density (seg2 .x .y 0 N 0 M)) order F = .ok F' ∧
      F'.rows = N ∧ F'.cols = M ∧ ∀ i j, i < N → j < M → F'.val i j = density (xs i) (ys j) := by
  have hxy : Dim.x ≠ Dim.y := by decide
  refine loop_ok hN hM (fun i j hi hj F => ?_) ho F hr hc
  rw [initial, Spectral.select_fst hxy, Res.ok_bind, unname_el, hX i hi, Res.ok_bind, Spectral.select_snd hxy, Res.ok_bind, hY j hj,
    Res.ok_bind, place_at hN hM hi hj, Res.ok_bind]

theorem feet_ok {N M : Nat} (hN : N < 2 ^ 63) (hM : M < 2 ^ 63) {coord : Elem Unit → Res Rat} {xs : Nat → Rat}
    (hX : ∀ i, i < N → coord (el () i) = .ok (xs i)) (vx dt : Rat) {order : List (List I64)}
    (ho : order.Perm (Support.policy [BitVec.ofNat 64 N, BitVec.ofNat 64 M])) (F : Mat Rat) (hr : F.rows = N) (hc : F.cols = M) :
    ∃ F', Support.runSchedule (Dom.support (seg2 .x .y 0 N 0 M)) (foot fl coord vx dt (seg2 .x .y 0 N 0 M)) order F = .ok F' ∧
      F'.rows = N ∧ F'.cols = M ∧ ∀ i j, i < N → j < M → F'.val i j = footOf fl vx dt (xs i) := by
  have hxy : Dim.x ≠ Dim.y := by decide
  refine loop_ok hN hM (fun i j hi hj F => ?_) ho F hr hc
  rw [foot, Spectral.select_fst hxy, Res.ok_bind, unname_el, hX i hi, Res.ok_bind, place_at hN hM hi hj, Res.ok_bind]

/-- What the loop needs to know of the builder: the coefficients of each line have the property `Q`. -/
def Builds (fl : Rat → Rat) (L : Lapack Rat) (B : Rounded.Builder) (R N : Nat) (Q : (Nat → Rat) → (Nat → Rat) → Prop) : Prop :=
  ∀ (σ : Sched) (_ : σ.Valid) (junk : Nat → Nat → Rat) (spline vals : Mat Rat), spline.rows = R → vals.rows = N →
    vals.cols = spline.cols → ∃ c, B.apply fl L σ junk spline vals none none = .ok c ∧ c.rows = R ∧ c.cols = spline.cols ∧
      ∀ j, j < spline.cols → Q (fun k => vals.val k j) fun J => c.val J j

theorem timeLoop_ok {L : Lapack Rat} {B : Rounded.Builder} {k : Knots} {coord : Elem Unit → Res Rat} {vx dt : Rat} {R N M : Nat}
    {xs : Nat → Rat} {Q P : (Nat → Rat) → (Nat → Rat) → Prop} (hN : N < 2 ^ 63) (hM : M < 2 ^ 63)
    (hX : ∀ i, i < N → coord (el () i) = .ok (xs i)) (hB : Builds fl L B R N Q)
    (hE : ∀ (last c : Nat → Rat), Q last c → ∃ f : Nat → Rat,
      (∀ i, i < N → k.eval fl true (fun _ _ => .ok 0) (fun _ _ => .ok 0) (footOf fl vx dt (xs i)) (coefsOf R c) = .ok (f i)) ∧
        ∀ g : Nat → Rat, (∀ i, i < N → g i = f i) → P last g)
    {rounds : Nat → Round Rat} (hord : ∀ k, (rounds k).order.Perm (Support.policy [BitVec.ofNat 64 N, BitVec.ofNat 64 M]))
    (hb : ∀ k, (rounds k).build.Valid) (he : ∀ k, (rounds k).eval.Valid) (T i : Nat) (last next coef feet : Mat Rat)
    (h1 : last.rows = N ∧ last.cols = M) (h2 : next.rows = N ∧ next.cols = M) (h3 : coef.rows = R ∧ coef.cols = M)
    (h4 : feet.rows = N ∧ feet.cols = M) :
    ∃ d : Nat → Nat → Nat → Rat, ∃ r : Mat Rat,
      timeLoop fl L B k coord vx dt (seg2 .x .y 0 N 0 M) rounds T i last next coef feet = .ok r ∧ r.rows = N ∧ r.cols = M ∧
      d 0 = last.val ∧ r.val = d T ∧ ∀ k, k < T → ∀ j, j < M → P (fun x => d k x j) fun x => d (k + 1) x j := by
  induction T generalizing i last next coef feet with
  | zero => exact ⟨fun _ => last.val, last, rfl, h1.1, h1.2, rfl, rfl, by simp⟩
  | succ T ih =>
    obtain ⟨feet', f1, f2, f3, f4⟩ := feet_ok (fl := fl) hN hM hX vx dt (hord i) feet h4.1 h4.2
    obtain ⟨c, c1, c2, c3, c4⟩ := hB _ (hb i) (rounds i).junk coef last h3.1 h1.1 (by rw [h1.2, h3.2])
    rw [h3.2] at c3 c4
    have hf : ∀ j, ∃ f : Nat → Rat, j < M → (∀ i, i < N →
        k.eval fl true (fun _ _ => .ok 0) (fun _ _ => .ok 0) (footOf fl vx dt (xs i)) (Eval.column c j) = .ok (f i)) ∧
        ∀ g : Nat → Rat, (∀ i, i < N → g i = f i) → P (fun k => last.val k j) g := by
      intro j
      by_cases hj : j < M
      · obtain ⟨f, a1, a2⟩ := hE _ _ (c4 j hj)
        refine ⟨f, fun _ => ⟨fun i hi => ?_, a2⟩⟩
        rw [← a1 i hi]
        exact eval_column _ _ _ _ _ c2 (by rw [c3]; exact hj)
      · exact ⟨fun _ => 0, fun h => absurd h hj⟩
    choose f hf using hf
    obtain ⟨next', n1, n2, n3, n4⟩ := evalMesh_ok (fl := fl) (he i) (k := k) (coords := feet') (coef := c) (out := next)
      (by rw [f2, h2.1]) (by rw [f3, h2.2]) (f := fun i j => f j i) (by
        intro i j hi hj
        rw [h2.1] at hi
        rw [h2.2] at hj
        rw [f4 i j hi hj]
        exact (hf j hj).1 i hi)
    rw [h2.1] at n2 n4
    rw [h2.2] at n3 n4
    obtain ⟨d, r, r1, r2, r3, r4, r5, r6⟩ := ih (i + 1) next' last c feet' ⟨n2, n3⟩ h1 ⟨c2, c3⟩ ⟨f2, f3⟩
    refine ⟨fun k => if k = 0 then last.val else d (k - 1), r, ?_, r2, r3, rfl, ?_, ?_⟩
    · rw [timeLoop, f1, Res.ok_bind, c1, Res.ok_bind, n1, Res.ok_bind, r1]
    · simpa using r5
    · intro k hk j hj
      rcases Nat.eq_zero_or_pos k with rfl | hk0
      · simp only [if_true, Nat.zero_add, one_ne_zero, if_false, Nat.sub_self]
        refine (hf j hj).2 _ fun i hi => ?_
        rw [r4]
        exact n4 i j hi hj
      · obtain ⟨k, rfl⟩ : ∃ k', k = k' + 1 := ⟨k - 1, by omega⟩
        simpa using r6 k (by omega) j hj

end DDC.RoundedAdvection
