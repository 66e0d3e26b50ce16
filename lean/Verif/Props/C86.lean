import Verif.Lemmas.RoundedSpectral
import Verif.Props.C83

/-!
# C86 — the heat equation of the examples by Fourier transforms, with rounding
-/

namespace DDC.Props

open Tup Spec Spectral Grid2 Fourier Finset Rounded
open One (seg el vec)
open Heat (Params)
open RoundedSpectral (factor spectralDt modeTol stepTol)

set_option linter.unusedSectionVars false

variable {fl sq : Rat → Rat} {η : ℝ}

/-- The parameters as real numbers. -/
noncomputable def realParams (p : Params Rat) : Params ℝ :=
  ⟨p.xStart, p.xEnd, p.nx, p.kx, p.yStart, p.yEnd, p.ny, p.ky, p.startTime, p.endTime⟩

/-- What is asked of the parameters: as for C79; the domains are not more than `Q` times their lengths away from the origin; the
number of steps is far from the limits of `double`. -/
structure RoundedSpectralSetting (p : Params Rat) (n m Q : Nat) : Prop where
  xs : p.xStart < p.xEnd
  ys : p.yStart < p.yEnd
  ts : p.startTime < p.endTime
  kxp : 0 < p.kx
  kyp : 0 < p.ky
  enx : p.nx = BitVec.ofNat 64 (n + 1)
  eny : p.ny = BitVec.ofNat 64 (m + 1)
  x2 : 2 ≤ n
  y2 : 2 ≤ m
  xb : n ≤ 2 ^ 31
  yb : m ≤ 2 ^ 31
  xfar : |p.xStart| ≤ Q * (p.xEnd - p.xStart)
  yfar : |p.yStart| ≤ Q * (p.yEnd - p.yStart)
  far : Q ≤ 2 ^ 20
  steps : (realParams p).endTime - (realParams p).startTime ≤ 2 ^ 49 * spectralStep (realParams p) n m

/-- The number of steps of the largest stable length in the time interval, not an integer in general. -/
noncomputable def spectralRatio (p : Params Rat) (n m : Nat) : ℝ :=
  ((realParams p).endTime - (realParams p).startTime) / spectralStep (realParams p) n m

/-- The square root of the sum of the squares of the values. -/
noncomputable def rootSum (n m : Nat) (f : Nat → Nat → ℝ) : ℝ := √(∑ i ∈ range n, ∑ j ∈ range m, f i j ^ 2)

/-- The growth of an error in one step, with a library that is exact up to `η`. -/
noncomputable def spectralTol (n m Q : Nat) (η : ℝ) : ℝ :=
  n * m * (η + 2 * (1 + η) * ((1 + 400 * (Q + 1) / 2 ^ 53) * (1 + 1 / 2 ^ 53) * (1 + η) - 1))

/-- `x` are the coordinates of the first `n` of `n + 1` points from `a` to `b`, up to rounding. -/
def CellsNear (a b : Rat) (n : Nat) (x : Nat → Rat) : Prop :=
  ∀ i, i < n → |x i - (a + i * ((b - a) / n))| ≤ (|a| + 7 * (b - a)) / 2 ^ 53

theorem stepTol_eq (n m Q : Nat) (η : ℝ) : stepTol n m η (400 * (Q + 1) / 2 ^ 53) = spectralTol n m Q η := by
  rw [stepTol, modeTol, spectralTol]
  push_cast
  ring

theorem spectralTol_nonneg (n m Q : Nat) (hη : 0 ≤ η) : 0 ≤ spectralTol n m Q η := by
  have h1 : (1 : ℝ) ≤ (1 + 400 * (Q + 1) / 2 ^ 53) * (1 + 1 / 2 ^ 53) :=
    one_le_mul_of_one_le_of_one_le (le_add_of_nonneg_right (by positivity)) (by norm_num)
  have h2 := one_le_mul_of_one_le_of_one_le h1 (show (1 : ℝ) ≤ 1 + η by linarith)
  have h3 : 0 ≤ (1 + 400 * ((Q : ℝ) + 1) / 2 ^ 53) * (1 + 1 / 2 ^ 53) * (1 + η) - 1 := by linarith
  rw [spectralTol]
  positivity

/-! ## The numbers that are computed -/

theorem near_add {m : Nat} {x y z w : ℝ} (h : NearR m x y) (h' : NearR m z w) (hy : 0 ≤ y) (hw : 0 ≤ w) :
    NearR m (x + z) (y + w) := by
  rw [NearR] at *
  rw [abs_of_nonneg hy] at h
  rw [abs_of_nonneg hw] at h'
  rw [abs_of_nonneg (add_nonneg hy hw), show x + z - (y + w) = (x - y) + (z - w) by ring]
  refine (abs_add_le _ _).trans ?_
  linarith

theorem cell_near (hfl : RoundsAll fl) (a b : Rat) (n : Nat) :
    NearR 2 ((fl (fl (b - a) / n) : Rat) : ℝ) (((b : ℝ) - a) / n) := by
  have h1 : NearR 1 ((fl (b - a) : Rat) : ℝ) ((b : ℝ) - a) := by
    refine NearR.fl hfl ?_
    push_cast
    exact NearR.refl _
  refine NearR.fl hfl ?_
  push_cast
  rw [div_eq_mul_one_div, div_eq_mul_one_div ((b : ℝ) - a)]
  exact h1.mul (NearR.refl _)

theorem wave_near (hfl : RoundsAll fl) {ft t : Dim} {a b : Rat} (hab : a < b) {n Q : Nat} (h2 : 2 ≤ n) (hb : n ≤ 2 ^ 31)
    (hfar : |a| ≤ Q * (b - a)) (hQ : Q ≤ 2 ^ 20) {dx : Rat} (hdx : dx = fl (fl (b - a) / n)) :
    ∃ (f : Periodic Dim Rat) (w : Nat → Rat), Rounded.initFourierSpace fl ft t ⟨a, dx, el t 0⟩ (seg t 0 n) = .ok f ∧
      (∀ k, k < n → Rounded.periodicCoordinate fl f (el ft k) = .ok (w k)) ∧
      ∀ k, k < n → NearR (52 * Q + 46) (w k : ℝ) (waveNumber a b n k) := by
  have hn : (0 : Rat) < n := by exact_mod_cast (by omega : 0 < n)
  have hn' : (0 : ℝ) < n := by exact_mod_cast (by omega : 0 < n)
  have hlo : lo t (seg t 0 n) = 0 := seg_lo (by omega)
  have hhi : hi t (seg t 0 n) = n := seg_hi (by omega)
  have hlen : len t (seg t 0 n) = n := by rw [len, hhi, hlo]; omega
  obtain ⟨d0, d1⟩ := flStep_error hfl hab (show 0 < n by omega)
  rw [← hdx] at d0 d1
  have hgn : (n : Rat) * ((b - a) / n) = b - a := mul_div_cancel₀ _ hn.ne'
  have hba : b - a ≤ 2 * (n * dx) := by
    have h1 := (abs_le.1 d1).1
    have h3 := mul_le_mul_of_nonneg_left h1 hn.le
    have h4 : (n : Rat) * -(3 / 2 ^ 53 * ((b - a) / n)) = -(3 / 2 ^ 53 * (b - a)) := by
      rw [← hgn]; field_simp
    rw [h4, mul_sub (n : Rat), hgn] at h3
    have : 0 < b - a := sub_pos.2 hab
    norm_num at h3 ⊢
    linarith
  have hside : FullSide (⟨a, dx, el t 0⟩ : Uniform Dim Rat) (4 * Q + 2) t (seg t 0 n) := by
    refine ⟨rfl, d0, by rw [hhi]; omega, by rw [hlen]; exact h2, ?_⟩
    rw [hhi, hlen]
    simp only
    have q1 : (n : Rat) * dx ≤ 2 * (((n - 1 : Nat) : Rat) * dx) := by
      have : (n : Rat) ≤ 2 * ((n - 1 : Nat) : Rat) := by exact_mod_cast (by omega : n ≤ 2 * (n - 1))
      have := mul_le_mul_of_nonneg_right this d0.le
      linarith
    have hQ0 : (0 : Rat) ≤ Q := Nat.cast_nonneg Q
    have q2 := mul_le_mul_of_nonneg_left hba hQ0
    have q3 := mul_le_mul_of_nonneg_left q1 (show (0 : Rat) ≤ 2 * Q + 1 by linarith)
    push_cast
    linarith
  obtain ⟨f, f1, -, -, f4⟩ := C85_wave_numbers_partial hfl ft t ⟨a, dx, el t 0⟩ (seg t 0 n) (seg_valid (by omega) (by omega)).2 rfl
    (by omega) hside (by rw [hlen]; exact hb)
  rw [hlen] at f4
  have key : ∀ k, ∃ w : Rat, k < n → Rounded.periodicCoordinate fl f (el ft k) = .ok w ∧
      NearR (52 * Q + 46) (w : ℝ) (waveNumber a b n k) := by
    intro k
    by_cases hk : k < n
    · obtain ⟨z, w, z1, z2, z3, z4, z5⟩ := f4 k hk
      refine ⟨w, fun _ => ⟨z1, ?_⟩⟩
      have e := signedMode_unique hk z3 z4 z5
      have n1 : NearR (13 * (4 * Q + 2) + 16) (w : ℝ) (2 * Real.pi * z / (n * dx)) := NearR.of_rel (by push_cast at z2 ⊢; exact z2)
      have n2 : NearR 4 (2 * Real.pi * z / ((n : ℝ) * dx)) (waveNumber a b n k) := by
        rw [waveNumber, ← e]
        have hd : NearR 2 ((n : ℝ) * dx) ((b : ℝ) - a) := by
          have := (NearR.refl (n : ℝ)).mul (hdx ▸ cell_near hfl a b n)
          rwa [mul_div_cancel₀ _ hn'.ne'] at this
        have hab' : (0 : ℝ) < (b : ℝ) - a := by
          have : (a : ℝ) < b := by exact_mod_cast hab
          linarith
        exact (NearR.refl (2 * Real.pi * z)).div hd (by norm_num) hab'
      exact (n1.trans n2).mono (by omega)
    · exact ⟨0, fun h => absurd h hk⟩
  choose w hw using key
  exact ⟨f, w, f1, fun k hk => (hw k hk).1, fun k hk => (hw k hk).2⟩

theorem dt_near (hfl : RoundsAll fl) {p : Params Rat} {n m : Nat} (hx : p.xStart < p.xEnd) (hy : p.yStart < p.yEnd)
    (hkx : 0 < p.kx) (hky : 0 < p.ky) (hn : 0 < n) (hm : 0 < m) {dx dy : Rat} (hdx : dx = fl (fl (p.xEnd - p.xStart) / n))
    (hdy : dy = fl (fl (p.yEnd - p.yStart) / m)) :
    NearR 31 ((spectralDt fl p.kx p.ky dx dy : Rat) : ℝ) (spectralStep (realParams p) n m) := by
  have part : ∀ {a b k : Rat} {n : Nat} {d : Rat}, a < b → 0 < k → 0 < n → d = fl (fl (b - a) / n) →
      NearR 14 ((fl (fl (k * fl (piDouble / d)) * fl (piDouble / d)) : Rat) : ℝ) ((k : ℝ) * (Real.pi / (((b : ℝ) - a) / n)) ^ 2) ∧
        0 < (k : ℝ) * (Real.pi / (((b : ℝ) - a) / n)) ^ 2 := by
    intro a b k n d hab hk hn hd
    have hn' : (0 : ℝ) < n := by exact_mod_cast hn
    have hk' : (0 : ℝ) < k := by exact_mod_cast hk
    have hab' : (0 : ℝ) < (b : ℝ) - a := by
      have : (a : ℝ) < b := by exact_mod_cast hab
      linarith
    have hpi := Real.pi_pos
    have h1 : NearR 6 ((fl (piDouble / d) : Rat) : ℝ) (Real.pi / (((b : ℝ) - a) / n)) := by
      refine NearR.fl hfl (m := 5) ?_
      push_cast
      exact piDouble_near.div (hd ▸ cell_near hfl a b n) (by norm_num) (by positivity)
    refine ⟨?_, by positivity⟩
    have h2 : NearR 7 ((fl (k * fl (piDouble / d)) : Rat) : ℝ) ((k : ℝ) * (Real.pi / (((b : ℝ) - a) / n))) := by
      refine NearR.fl hfl (m := 6) ?_
      push_cast
      exact ((NearR.refl _).mul h1).mono (by norm_num)
    refine NearR.fl hfl (m := 13) ?_
    push_cast
    rw [pow_two, ← mul_assoc]
    exact h2.mul h1
  obtain ⟨a1, a2⟩ := part hx hkx hn hdx
  obtain ⟨b1, b2⟩ := part hy hky hm hdy
  have hs := near_add a1 b1 a2.le b2.le
  have hs2 : NearR 15 ((fl (fl (fl (p.kx * fl (piDouble / dx)) * fl (piDouble / dx)) +
      fl (fl (p.ky * fl (piDouble / dy)) * fl (piDouble / dy))) : Rat) : ℝ)
      ((p.kx : ℝ) * (Real.pi / (((p.xEnd : ℝ) - p.xStart) / n)) ^ 2 + (p.ky : ℝ) * (Real.pi / (((p.yEnd : ℝ) - p.yStart) / m)) ^ 2) := by
    refine NearR.fl hfl (m := 14) ?_
    push_cast
    exact hs
  rw [spectralDt, spectralStep]
  refine NearR.fl hfl (m := 30) ?_
  push_cast
  exact (NearR.refl 2).div hs2 (by norm_num) (add_pos a2 b2)

theorem factor_near (hfl : RoundsAll fl) {kx ky dt wx wy : Rat} {x y s : ℝ} {Q : Nat} (hQ : Q ≤ 2 ^ 20) (hkx : 0 < kx) (hky : 0 < ky)
    (hx : NearR (52 * Q + 46) (wx : ℝ) x) (hy : NearR (52 * Q + 46) (wy : ℝ) y) (hs : NearR 31 (dt : ℝ) s) (h0 : 0 < s)
    (h2 : |1 - s * (kx * x ^ 2 + ky * y ^ 2)| ≤ 1) :
    |((factor fl kx ky dt wx wy : Rat) : ℝ) - (1 - s * (kx * x ^ 2 + ky * y ^ 2))| ≤ 400 * ((Q : ℝ) + 1) / 2 ^ 53 := by
  have hkx' : (0 : ℝ) < kx := by exact_mod_cast hkx
  have hky' : (0 : ℝ) < ky := by exact_mod_cast hky
  have part : ∀ {k w : Rat} {z : ℝ}, NearR (52 * Q + 46) (w : ℝ) z →
      NearR (104 * Q + 94) ((fl (fl (k * w) * w) : Rat) : ℝ) ((k : ℝ) * z ^ 2) := by
    intro k w z h
    have h1 : NearR (52 * Q + 47) ((fl (k * w) : Rat) : ℝ) ((k : ℝ) * z) := by
      refine NearR.fl hfl (m := 52 * Q + 46) ?_
      push_cast
      exact ((NearR.refl _).mul h).mono (by omega)
    refine NearR.fl hfl (m := 104 * Q + 93) ?_
    push_cast
    rw [pow_two, ← mul_assoc]
    exact (h1.mul h).mono (by omega)
  have p1 : (0 : ℝ) ≤ kx * x ^ 2 := by positivity
  have p2 : (0 : ℝ) ≤ ky * y ^ 2 := by positivity
  have n1 : NearR (104 * Q + 95) ((fl (fl (fl (kx * wx) * wx) + fl (fl (ky * wy) * wy)) : Rat) : ℝ) (kx * x ^ 2 + ky * y ^ 2) := by
    refine NearR.fl hfl (m := 104 * Q + 94) ?_
    push_cast
    exact near_add (part hx) (part hy) p1 p2
  have n2 : NearR (104 * Q + 127) ((fl (fl (fl (fl (kx * wx) * wx) + fl (fl (ky * wy) * wy)) * dt) : Rat) : ℝ)
      ((kx * x ^ 2 + ky * y ^ 2) * s) := by
    refine NearR.fl hfl (m := 104 * Q + 126) ?_
    push_cast
    exact (n1.mul hs).mono (by omega)
  rw [factor]
  obtain ⟨P', hP'⟩ : ∃ P' : Rat, P' = fl (fl (fl (fl (kx * wx) * wx) + fl (fl (ky * wy) * wy)) * dt) := ⟨_, rfl⟩
  obtain ⟨P, hP⟩ : ∃ P : ℝ, P = (kx * x ^ 2 + ky * y ^ 2) * s := ⟨_, rfl⟩
  rw [← hP', ← hP] at n2
  rw [← hP', show 1 - s * (kx * x ^ 2 + ky * y ^ 2) = 1 - P by rw [hP]; ring]
  rw [show 1 - s * (kx * x ^ 2 + ky * y ^ 2) = 1 - P by rw [hP]; ring] at h2
  have hP0 : 0 ≤ P := by rw [hP]; positivity
  have hP2 : P ≤ 2 := by linarith [(abs_le.1 h2).1]
  have e1 := n2.bound (by omega)
  rw [abs_of_nonneg hP0] at e1
  have hQ0 : (0 : ℝ) ≤ Q := Nat.cast_nonneg Q
  have hQ' : (Q : ℝ) ≤ 1048576 := by exact_mod_cast (show Q ≤ 1048576 from hQ)
  have e2 : |(P' : ℝ) - P| ≤ 17 / 16 * (104 * Q + 127) / 2 ^ 53 * 2 := by
    refine e1.trans ?_
    push_cast
    exact mul_le_mul_of_nonneg_left hP2 (by positivity)
  have e3 : |((fl (1 - P') : Rat) : ℝ) - (1 - P')| ≤ |(1 : ℝ) - P'| / 2 ^ 53 := by
    have := (Rat.cast_le (K := ℝ)).2 (hfl.error (1 - P'))
    push_cast at this
    exact this
  have e4 : |(1 : ℝ) - P'| ≤ 2 := by
    have : |(1 : ℝ) - P'| ≤ |1 - P| + |(P' : ℝ) - P| := by
      rw [show (1 : ℝ) - P' = (1 - P) - (P' - P) by ring]
      exact abs_sub _ _
    have e2' : 17 / 16 * (104 * (Q : ℝ) + 127) / 2 ^ 53 * 2 ≤ 1 := by linarith
    linarith
  have e5 : |((fl (1 - P') : Rat) : ℝ) - (1 - P)| ≤ |((fl (1 - P') : Rat) : ℝ) - (1 - P')| + |(P' : ℝ) - P| := by
    rw [show ((fl (1 - P') : Rat) : ℝ) - (1 - P) = (((fl (1 - P') : Rat) : ℝ) - (1 - P')) - (P' - P) by ring]
    exact abs_sub _ _
  refine e5.trans ((add_le_add e3 e2).trans ?_)
  norm_num at e4 ⊢
  linarith

theorem cells_near (hfl : RoundsAll fl) {a b : Rat} (hab : a < b) {n : Nat} (hn : 0 < n) {dx : Rat}
    (hdx : dx = fl (fl (b - a) / n)) : CellsNear a b n (fun i => flPoint fl a dx i) := by
  intro i hi
  have hn' : (0 : Rat) < n := by exact_mod_cast hn
  obtain ⟨d0, d1⟩ := flStep_error hfl hab hn
  rw [← hdx] at d0 d1
  obtain ⟨g, hg⟩ : ∃ g, g = (b - a) / (n : Rat) := ⟨_, rfl⟩
  rw [← hg] at d1 ⊢
  have hgn : (n : Rat) * g = b - a := by rw [hg]; exact mul_div_cancel₀ _ hn'.ne'
  have hd : 0 < b - a := sub_pos.2 hab
  have hg0 : 0 < g := by rw [hg]; exact div_pos hd hn'
  have hi' : (i : Rat) ≤ n := by exact_mod_cast hi.le
  have hi0 : (0 : Rat) ≤ i := Nat.cast_nonneg i
  have h1 := flPoint_error hfl a dx (i : Int)
  rw [Int.cast_natCast] at h1
  have k1 : (i : Rat) * g ≤ b - a := by rw [← hgn]; exact mul_le_mul_of_nonneg_right hi' hg0.le
  have k2 : |(i : Rat) * dx - i * g| ≤ 3 / 2 ^ 53 * (b - a) := by
    rw [← mul_sub, abs_mul, abs_of_nonneg hi0]
    have := mul_le_mul_of_nonneg_left d1 hi0
    have k := mul_le_mul_of_nonneg_left k1 (show (0 : Rat) ≤ 3 / 2 ^ 53 by norm_num)
    linarith
  have k3 : |(i : Rat) * dx| ≤ (1 + 3 / 2 ^ 53) * (b - a) := by
    rw [abs_le] at k2 ⊢
    have := mul_nonneg hi0 hg0.le
    have := mul_nonneg hi0 d0.le
    constructor <;> linarith [k2.1, k2.2]
  have k4 := abs_add_le a ((i : Rat) * dx)
  have k5 : |flPoint fl a dx i - (a + i * g)| ≤ |flPoint fl a dx i - (a + i * dx)| + |(i : Rat) * dx - i * g| := by
    rw [show flPoint fl a dx i - (a + i * g) = (flPoint fl a dx i - (a + i * dx)) + (i * dx - i * g) by ring]
    exact abs_add_le _ _
  refine k5.trans ?_
  norm_num at h1 k2 k3 k4 ⊢
  linarith

/-! ## The program -/

theorem RoundedSpectralSetting.exact {p : Params Rat} {n m Q : Nat} (h : RoundedSpectralSetting p n m Q) :
    ∃ M, SpectralSetting (realParams p) n m M := by
  have hn : (0 : ℝ) < n := by have := h.x2; exact_mod_cast (by omega : 0 < n)
  have hm : (0 : ℝ) < m := by have := h.y2; exact_mod_cast (by omega : 0 < m)
  have hx : (realParams p).xStart < (realParams p).xEnd := Rat.cast_lt.2 h.xs
  have hy : (realParams p).yStart < (realParams p).yEnd := Rat.cast_lt.2 h.ys
  have ht : (realParams p).startTime < (realParams p).endTime := Rat.cast_lt.2 h.ts
  have hkx : 0 < (realParams p).kx := Rat.cast_pos.2 h.kxp
  have hky : 0 < (realParams p).ky := Rat.cast_pos.2 h.kyp
  have hs : 0 < spectralStep (realParams p) n m := by
    have h1 : 0 < ((realParams p).xEnd - (realParams p).xStart) / n := div_pos (by linarith) hn
    have h2 : 0 < ((realParams p).yEnd - (realParams p).yStart) / m := div_pos (by linarith) hm
    have h3 := mul_pos hkx (pow_pos (div_pos Real.pi_pos h1) 2)
    have h4 := mul_pos hky (pow_pos (div_pos Real.pi_pos h2) 2)
    exact div_pos two_pos (by linarith)
  refine ⟨⌈spectralRatio p n m⌉₊, hx, hy, ht, hkx, hky, h.enx, h.eny, h.x2, h.y2, h.xb, h.yb, ?_, ?_, ?_⟩
  · have := Nat.le_ceil (spectralRatio p n m)
    rwa [spectralRatio, div_le_iff₀ hs] at this
  · intro k hk
    rw [Nat.ceil_le, spectralRatio, div_le_iff₀ hs]
    exact hk
  · have : spectralRatio p n m ≤ ((2 ^ 49 : Nat) : ℝ) := by
      rw [spectralRatio, div_le_iff₀ hs, Nat.cast_pow, Nat.cast_ofNat]
      exact h.steps
    have := Nat.ceil_le.2 this
    omega

theorem eulerFactor_neg {p : Params ℝ} {n m : Nat} (dt : ℝ) {k l : Nat} (hk : k < n) (hl : l < m) :
    eulerFactor p n m dt ((n - k) % n) ((m - l) % m) = eulerFactor p n m dt k l := by
  have hsq : ∀ (a b : ℝ) (n k : Nat), k < n → waveNumber a b n ((n - k) % n) ^ 2 = waveNumber a b n k ^ 2 := by
    intro a b n k hk
    have e : (signedMode n ((n - k) % n) : ℝ) * signedMode n ((n - k) % n) = signedMode n k * signedMode n k := by
      exact_mod_cast signedMode_sq hk
    have e2 : ∀ z : ℝ, (2 * Real.pi * z / (b - a)) ^ 2 = (2 * Real.pi / (b - a)) ^ 2 * (z * z) := by
      intro z; ring
    rw [waveNumber, waveNumber, e2, e2, e]
  rw [eulerFactor, eulerFactor, hsq _ _ _ _ hk, hsq _ _ _ _ hl]

/-- The factor of a mode in a step of exact arithmetic. -/
noncomputable def exactFactor (p : Params Rat) (n m : Nat) : List Nat → ℝ
  | [k, l] => eulerFactor (realParams p) n m (spectralStep (realParams p) n m) k l
  | _ => 1

theorem amp_real (n m : Nat) (f : List Nat → ℝ) :
    RoundedSpectral.amp n m (fun xs => (f xs : ℂ)) = rootSum n m (fun i j => f [i, j]) := by
  rw [rootSum, ← Real.sqrt_sq (RoundedSpectral.amp_nonneg _), RoundedSpectral.amp_sq]
  congr 1
  simp only [mass]
  refine sum_congr rfl fun i _ => sum_congr rfl fun j _ => ?_
  rw [Complex.norm_real, Real.norm_eq_abs, sq_abs]

section

variable {p : Params Rat} {n m Q : Nat}

theorem exactFactor_stable (h : RoundedSpectralSetting p n m Q) :
    ∀ ks, Within [n, m] ks → |exactFactor p n m ks| ≤ 1 := by
  intro ks hk
  obtain ⟨k, l, h1, h2, rfl⟩ := within_two.1 hk
  obtain ⟨M, hM⟩ := h.exact
  exact (C79_stable hM h1 h2).1

theorem exactFactor_neg : ∀ ks, Within [n, m] ks → exactFactor p n m (neg [n, m] ks) = exactFactor p n m ks := by
  intro ks hk
  obtain ⟨k, l, h1, h2, rfl⟩ := within_two.1 hk
  exact eulerFactor_neg _ h1 h2

/-- The program as a whole, with filtered arrays. -/
theorem spectral_main (hfl : RoundsAll fl) {L : Rounded.FFTLibrary} (hη : 0 ≤ η) (hL : FFTLibrary.Accurate L 2 η)
    (h : RoundedSpectralSetting p n m Q) (temp : Rat → Rat → Rat) (junk : List Nat → Rat) (order : List (List I64))
    (ho : order.Perm (Support.policy [BitVec.ofNat 64 n, BitVec.ofNat 64 m])) (orders : Nat → List (List I64))
    (hos : ∀ i, (orders i).Perm (Support.policy [BitVec.ofNat 64 n, BitVec.ofNat 64 (m / 2 + 1)])) :
    ∃ r, ∃ M : Nat, ∃ xs ys : Nat → Rat, ∃ f : List Nat → Rat,
      RoundedSpectral.main fl sq L p temp junk order orders = .ok r ∧
      0 < M ∧ (1 - 68 / 2 ^ 53) * spectralRatio p n m ≤ M ∧ (M : ℝ) < (1 + 68 / 2 ^ 53) * spectralRatio p n m + 1 ∧
      CellsNear p.xStart p.xEnd n xs ∧ CellsNear p.yStart p.yEnd m ys ∧ (∀ i j, i < n → j < m → f [i, j] = temp (xs i) (ys j)) ∧
      RoundedSpectral.amp n m (fun xs => ((r xs : ℝ) : ℂ) -
          (RoundedSpectral.filter n m (exactFactor p n m))^[M] (fun xs => ((f xs : ℝ) : ℂ)) xs) ≤
        ((1 + spectralTol n m Q η) ^ M - 1) * RoundedSpectral.amp n m (fun xs => ((f xs : ℝ) : ℂ)) := by
  have hx2 := h.x2; have hy2 := h.y2; have hxb := h.xb; have hyb := h.yb
  obtain ⟨M0, hM0⟩ := h.exact
  have hst := hM0.step_pos
  have ht := hM0.ts
  obtain ⟨dx, hdx⟩ : ∃ dx, dx = fl (fl (p.xEnd - p.xStart) / (n : Rat)) := ⟨_, rfl⟩
  obtain ⟨dy, hdy⟩ : ∃ dy, dy = fl (fl (p.yEnd - p.yStart) / (m : Rat)) := ⟨_, rfl⟩
  have ndt := dt_near hfl h.xs h.ys h.kxp h.kyp (show 0 < n by omega) (show 0 < m by omega) hdx hdy
  obtain ⟨dt, hdt⟩ : ∃ dt, dt = spectralDt fl p.kx p.ky dx dy := ⟨_, rfl⟩
  rw [← hdt] at ndt
  obtain ⟨R', hR'⟩ : ∃ R', R' = fl (fl (p.endTime - p.startTime) / dt) := ⟨_, rfl⟩
  have nR : NearR 64 (R' : ℝ) (spectralRatio p n m) := by
    have h1 : NearR 1 ((fl (p.endTime - p.startTime) : Rat) : ℝ) ((realParams p).endTime - (realParams p).startTime) := by
      refine NearR.fl hfl (m := 0) ?_
      push_cast
      exact NearR.refl _
    rw [hR', spectralRatio]
    refine NearR.fl hfl (m := 63) ?_
    push_cast
    exact (h1.div ndt (by norm_num) hst).mono (by norm_num)
  have hR0 : 0 < spectralRatio p n m := div_pos (by linarith) hst
  have hRb : spectralRatio p n m ≤ 2 ^ 49 := by rw [spectralRatio, div_le_iff₀ hst]; exact h.steps
  have hR'0 : 0 < R' := by
    have := nR.pos (by norm_num) hR0
    exact_mod_cast this
  have hR'1 := nR.bound (by norm_num)
  rw [abs_of_pos hR0, abs_le] at hR'1
  obtain ⟨N, hN⟩ : ∃ N : Nat, ⌈R'⌉ = (N : Int) := ⟨⌈R'⌉.toNat, (Int.toNat_of_nonneg (Int.ceil_nonneg hR'0.le)).symm⟩
  have hN0 : 0 < N := by
    have := Int.ceil_pos.2 hR'0
    omega
  have hN1 : (R' : ℝ) ≤ N := by
    have := Int.le_ceil R'
    rw [hN, Int.cast_natCast] at this
    exact_mod_cast this
  have hN2 : (N : ℝ) < R' + 1 := by
    have := Int.ceil_lt_add_one R'
    rw [hN, Int.cast_natCast] at this
    exact_mod_cast this
  have hNb : N < 2 ^ 50 := by
    have : (N : ℝ) < 2 ^ 50 := lt_of_lt_of_le hN2 (by norm_num at hR'1 hRb ⊢; linarith [hR'1.2])
    exact_mod_cast this
  obtain ⟨fx, wx, fx1, fx2, fx3⟩ := wave_near (ft := Dim.fx) (t := Dim.x) hfl h.xs hx2 hxb h.xfar h.far hdx
  obtain ⟨fy, wy, fy1, fy2, fy3⟩ := wave_near (ft := Dim.fy) (t := Dim.y) hfl h.ys hy2 hyb h.yfar h.far hdy
  have R : RoundedSpectral.Ready fl L n m fx fy wx wy p.kx p.ky dt (exactFactor p n m) η (400 * (Q + 1) / 2 ^ 53) := by
    refine ⟨hfl, hL, hη, by omega, by omega, by omega, by omega, fx2, fy2, exactFactor_neg, exactFactor_stable h, ?_⟩
    intro k l hk hl
    have hs := exactFactor_stable h [k, l] (within_two.2 ⟨k, l, hk, hl, rfl⟩)
    exact factor_near hfl h.far h.kxp h.kyp (fx3 k hk) (fy3 l hl) ndt hst hs
  have i1 := rounded_init hfl Dim.x h.xs (n := n + 1) (by omega) (by omega)
  have i2 := rounded_init hfl Dim.y h.ys (n := m + 1) (by omega) (by omega)
  have i3 := rounded_init hfl Dim.t h.ts (n := N + 1) (by omega) (by omega)
  rw [show n + 1 - 1 = n by omega, fl_nat hfl (show n ≤ 2 ^ 53 by omega), ← hdx] at i1
  rw [show m + 1 - 1 = m by omega, fl_nat hfl (show m ≤ 2 ^ 53 by omega), ← hdy] at i2
  have hxy : Dim.x ≠ Dim.y := by decide
  obtain ⟨f, f1, f2⟩ := RoundedSpectral.initial_ok (n := n) (m := m) (by omega) (by omega)
    (fun i hi => uniformCoordinate_ok hfl Dim.x p.xStart dx (show i ≤ 2 ^ 53 by omega))
    (fun j hj => uniformCoordinate_ok hfl Dim.y p.yStart dy (show j ≤ 2 ^ 53 by omega)) temp junk ho
  obtain ⟨r, r1, r2⟩ := RoundedSpectral.timeLoop_near (sq := sq)
    (u := fun t => if t = .y then ⟨p.yStart, dy, el Dim.y 0⟩ else ⟨p.xStart, dx, el Dim.x 0⟩) R
    (by rw [stepTol_eq]; exact spectralTol_nonneg n m Q hη) hos N 0 f
  rw [stepTol_eq] at r2
  refine ⟨r, N, _, _, f, ?_, hN0, ?_, ?_, cells_near hfl h.xs (by omega) hdx, cells_near hfl h.ys (by omega) hdy, f2, r2⟩
  · obtain ⟨t1, t2⟩ := time_nat Dim.t N (by omega)
    have hadd : Vect.addInt [(Dim.t, BitVec.ofNat 64 N)] 1 = .ok [(Dim.t, BitVec.ofNat 64 (N + 1))] := by
      have : (1 : I64) = BitVec.ofNat 64 1 := rfl
      rw [Vect.addInt, this, One.sAdd_nat (by omega)]; rfl
    have hMn : (BitVec.ofNat 64 N).toNat = N := toNat_small (by omega)
    rw [RoundedSpectral.main, h.enx, h.eny, i1, Res.ok_bind]
    simp only [removeLast_nat Dim.x n (by omega), removeLast_nat Dim.y m (by omega), Res.ok_bind, i2, ← hdt, ← hR',
      rounded_ceilCast hfl hN hNb, hadd, i3, ofDomains_two hxy, f1, fx1, fy1,
      mesh_nat (show n < 2 ^ 63 by omega) (show m < 2 ^ 63 by omega), t1, t2, hMn, r1]
  · norm_num at hR'1 ⊢
    linarith [hR'1.1]
  · norm_num at hR'1 ⊢
    linarith [hR'1.2]

/-- What `M` steps of exact arithmetic make of given temperatures exists; it is unique (`C79_determined`). -/
theorem C86_reference (h : RoundedSpectralSetting p n m Q) (M : Nat) (f : Nat → Nat → ℝ) :
    ∃ e : Nat → Nat → ℝ, ∀ k l, k < n → l < m → spectrum n m e k l =
      (eulerFactor (realParams p) n m (spectralStep (realParams p) n m) k l : ℂ) ^ M * spectrum n m f k l := by
  have hx2 := h.x2; have hy2 := h.y2
  induction M generalizing f with
  | zero => exact ⟨f, fun k l _ _ => by simp⟩
  | succ M ih =>
    obtain ⟨e, he⟩ := ih (fun i j => (RoundedSpectral.filter n m (exactFactor p n m)
      (fun xs => (f (xs.getD 0 0) (xs.getD 1 0) : ℂ)) [i, j]).re)
    refine ⟨e, fun k l hk hl => ?_⟩
    have hw : Within [n, m] [k, l] := within_two.2 ⟨k, l, hk, hl, rfl⟩
    rw [he k l hk hl, spectrum_dft n m (fun xs => (RoundedSpectral.filter n m (exactFactor p n m)
      (fun xs => (f (xs.getD 0 0) (xs.getD 1 0) : ℂ)) xs).re),
      dft_congr (fun xs hx => RoundedSpectral.filter_real exactFactor_neg (fun xs => f (xs.getD 0 0) (xs.getD 1 0)) hx),
      RoundedSpectral.filter_modes (by omega) (by omega) _ hw,
      ← spectrum_dft n m (fun xs => f (xs.getD 0 0) (xs.getD 1 0)), pow_succ, mul_assoc]
    rfl

theorem spectrum_sub (n m : Nat) (f g : Nat → Nat → ℝ) (k l : Nat) :
    spectrum n m (fun i j => f i j - g i j) k l = spectrum n m f k l - spectrum n m g k l := by
  simp only [spectrum, ← sum_sub_distrib]
  refine sum_congr rfl fun i _ => sum_congr rfl fun j _ => ?_
  push_cast
  ring

/-- `main` ends, whatever the order of the iterations of its kernels; the temperatures at the end are those of `M` steps of exact
arithmetic up to an error that grows by `spectralTol` per step, and they do not grow by more. -/
theorem C86_modes (hfl : RoundsAll fl) {L : Rounded.FFTLibrary} (hη : 0 ≤ η) (hL : FFTLibrary.Accurate L 2 η)
    (h : RoundedSpectralSetting p n m Q) (temp : Rat → Rat → Rat) (junk : List Nat → Rat) (order : List (List I64))
    (ho : order.Perm (Support.policy [BitVec.ofNat 64 n, BitVec.ofNat 64 m])) (orders : Nat → List (List I64))
    (hos : ∀ i, (orders i).Perm (Support.policy [BitVec.ofNat 64 n, BitVec.ofNat 64 (m / 2 + 1)])) :
    ∃ r, ∃ M : Nat, ∃ xs ys : Nat → Rat, RoundedSpectral.main fl sq L p temp junk order orders = .ok r ∧
      0 < M ∧ (1 - 68 / 2 ^ 53) * spectralRatio p n m ≤ M ∧ (M : ℝ) < (1 + 68 / 2 ^ 53) * spectralRatio p n m + 1 ∧
      CellsNear p.xStart p.xEnd n xs ∧ CellsNear p.yStart p.yEnd m ys ∧
      rootSum n m (fun i j => r [i, j]) ≤ (1 + spectralTol n m Q η) ^ M * rootSum n m (fun i j => temp (xs i) (ys j)) ∧
      ∀ e : Nat → Nat → ℝ, (∀ k l, k < n → l < m → spectrum n m e k l =
          (eulerFactor (realParams p) n m (spectralStep (realParams p) n m) k l : ℂ) ^ M *
            spectrum n m (fun i j => temp (xs i) (ys j)) k l) →
        rootSum n m (fun i j => r [i, j] - e i j) ≤
          ((1 + spectralTol n m Q η) ^ M - 1) * rootSum n m (fun i j => temp (xs i) (ys j)) := by
  have hx2 := h.x2; have hy2 := h.y2
  obtain ⟨r, M, xs, ys, f, h1, h2, h3, h4, h5, h6, h7, h8⟩ := spectral_main (sq := sq) hfl hη hL h temp junk order ho orders hos
  have hr : rootSum n m (fun i j => (temp (xs i) (ys j) : ℝ)) = RoundedSpectral.amp n m (fun xs => ((f xs : ℝ) : ℂ)) := by
    rw [amp_real n m (fun xs => (f xs : ℝ)), rootSum, rootSum]
    congr 1
    refine sum_congr rfl fun i hi => sum_congr rfl fun j hj => ?_
    rw [h7 i j (mem_range.1 hi) (mem_range.1 hj)]
  have hst := exactFactor_stable h
  refine ⟨r, M, xs, ys, h1, h2, h3, h4, h5, h6, ?_, ?_⟩
  · rw [hr, ← amp_real n m (fun xs => (r xs : ℝ))]
    have a1 := RoundedSpectral.amp_le_add (n := n) (m := m) (fun xs => ((r xs : ℝ) : ℂ))
      ((RoundedSpectral.filter n m (exactFactor p n m))^[M] (fun xs => ((f xs : ℝ) : ℂ)))
    have a2 : RoundedSpectral.amp n m ((RoundedSpectral.filter n m (exactFactor p n m))^[M] (fun xs => ((f xs : ℝ) : ℂ))) ≤
        RoundedSpectral.amp n m (fun xs => ((f xs : ℝ) : ℂ)) := by
      refine RoundedSpectral.amp_le_of_modes (by omega) (by omega) fun ks hk => ?_
      rw [RoundedSpectral.iterate_modes (by omega) (by omega) M _ hk, norm_mul, norm_pow, Complex.norm_real]
      exact mul_le_of_le_one_left (norm_nonneg _) (pow_le_one₀ (norm_nonneg _) (hst ks hk))
    linarith
  · intro e he
    rw [hr]
    have a1 := RoundedSpectral.amp_triangle (n := n) (m := m) (fun xs => ((r xs : ℝ) : ℂ))
      ((RoundedSpectral.filter n m (exactFactor p n m))^[M] (fun xs => ((f xs : ℝ) : ℂ)))
      (fun xs => (e (xs.getD 0 0) (xs.getD 1 0) : ℂ))
    have a2 : RoundedSpectral.amp n m (fun xs => (RoundedSpectral.filter n m (exactFactor p n m))^[M] (fun xs => ((f xs : ℝ) : ℂ)) xs -
        (e (xs.getD 0 0) (xs.getD 1 0) : ℂ)) ≤ RoundedSpectral.amp n m (fun _ => 0) := by
      refine RoundedSpectral.amp_le_of_modes (by omega) (by omega) fun ks hk => ?_
      obtain ⟨k, l, k1, k2, rfl⟩ := within_two.1 hk
      rw [← dft_sub, RoundedSpectral.iterate_modes (by omega) (by omega) M _ hk,
        ← spectrum_dft n m (fun xs => e (xs.getD 0 0) (xs.getD 1 0)), ← spectrum_dft n m (fun xs => (f xs : ℝ))]
      have := he k l k1 k2
      rw [spectrum_congr (f := fun i j => (temp (xs i) (ys j) : ℝ)) (g := fun i j => ((f [i, j] : Rat) : ℝ))
        (fun i j hi hj => by rw [h7 i j hi hj])] at this
      rw [show spectrum n m (fun i j => (fun xs : List Nat => e (xs.getD 0 0) (xs.getD 1 0)) [i, j]) k l = spectrum n m e k l from rfl,
        this]
      simp only [exactFactor, sub_self, norm_zero]
      exact norm_nonneg _
    have a3 : RoundedSpectral.amp n m (fun _ => (0 : ℂ)) = 0 := by
      have : RoundedSpectral.vecOf n m (fun _ => (0 : ℂ)) = 0 := by ext q; simp [RoundedSpectral.vecOf]
      rw [RoundedSpectral.amp, this, norm_zero]
    have a4 : rootSum n m (fun i j => r [i, j] - e i j) =
        RoundedSpectral.amp n m (fun xs => ((r xs : ℝ) : ℂ) - (e (xs.getD 0 0) (xs.getD 1 0) : ℂ)) := by
      have := amp_real n m (fun xs => (r xs : ℝ) - e (xs.getD 0 0) (xs.getD 1 0))
      simp only [Complex.ofReal_sub] at this
      rw [this]
      rfl
    rw [a4]
    linarith

/-- The sum of the temperatures at the end is that at the beginning, up to rounding. -/
theorem C86_conservation (hfl : RoundsAll fl) {L : Rounded.FFTLibrary} (hη : 0 ≤ η) (hL : FFTLibrary.Accurate L 2 η)
    (h : RoundedSpectralSetting p n m Q) (temp : Rat → Rat → Rat) (junk : List Nat → Rat) (order : List (List I64))
    (ho : order.Perm (Support.policy [BitVec.ofNat 64 n, BitVec.ofNat 64 m])) (orders : Nat → List (List I64))
    (hos : ∀ i, (orders i).Perm (Support.policy [BitVec.ofNat 64 n, BitVec.ofNat 64 (m / 2 + 1)])) :
    ∃ r, ∃ M : Nat, ∃ xs ys : Nat → Rat, RoundedSpectral.main fl sq L p temp junk order orders = .ok r ∧
      (M : ℝ) < (1 + 68 / 2 ^ 53) * spectralRatio p n m + 1 ∧
      CellsNear p.xStart p.xEnd n xs ∧ CellsNear p.yStart p.yEnd m ys ∧
      |∑ i ∈ range n, ∑ j ∈ range m, (r [i, j] : ℝ) - ∑ i ∈ range n, ∑ j ∈ range m, (temp (xs i) (ys j) : ℝ)| ≤
        √(n * m) * (((1 + spectralTol n m Q η) ^ M - 1) * rootSum n m (fun i j => temp (xs i) (ys j))) := by
  have hx2 := h.x2; have hy2 := h.y2
  obtain ⟨r, M, xs, ys, h1, -, -, h4, h5, h6, -, h8⟩ := C86_modes (sq := sq) hfl hη hL h temp junk order ho orders hos
  refine ⟨r, M, xs, ys, h1, h4, h5, h6, ?_⟩
  obtain ⟨e, he⟩ := C86_reference h M (fun i j => temp (xs i) (ys j))
  have k := h8 e he
  obtain ⟨M0, hM0⟩ := h.exact
  have h0 := he 0 0 (by omega) (by omega)
  rw [(C79_stable hM0 (show 0 < n by omega) (show 0 < m by omega)).2.1] at h0
  have es : ∀ f : Nat → Nat → ℝ, spectrum n m f 0 0 = ((∑ i ∈ range n, ∑ j ∈ range m, f i j : ℝ) : ℂ) := by
    intro f
    rw [spectrum]
    push_cast
    simp
  rw [es, es, Complex.ofReal_one, one_pow, one_mul] at h0
  have h0' : ∑ i ∈ range n, ∑ j ∈ range m, e i j = ∑ i ∈ range n, ∑ j ∈ range m, (temp (xs i) (ys j) : ℝ) := by exact_mod_cast h0
  rw [← h0', ← sum_sub_distrib]
  simp only [← sum_sub_distrib]
  have c1 := RoundedSpectral.mass_le_amp (n := n) (m := m)
    (fun xs => (((r xs : ℝ) - e (xs.getD 0 0) (xs.getD 1 0) : ℝ) : ℂ))
  rw [amp_real n m (fun xs => (r xs : ℝ) - e (xs.getD 0 0) (xs.getD 1 0))] at c1
  have c2 : |∑ i ∈ range n, ∑ j ∈ range m, ((r [i, j] : ℝ) - e i j)| ≤ mass [n, m]
      (fun xs => ‖(((r xs : ℝ) - e (xs.getD 0 0) (xs.getD 1 0) : ℝ) : ℂ)‖) := by
    simp only [mass, Complex.norm_real, Real.norm_eq_abs]
    refine (abs_sum_le_sum_abs _ _).trans (sum_le_sum fun i _ => ?_)
    exact abs_sum_le_sum_abs _ _
  refine c2.trans (c1.trans ?_)
  push_cast
  exact mul_le_mul_of_nonneg_left k (Real.sqrt_nonneg _)

end

/-! ## The constants of the program -/

/-- Lines 79-99; `.01` and `.002` are rounded. -/
def programSpectral (fl : Rat → Rat) : Params Rat := ⟨-1, 1, 10, fl (1 / 100), -1, 1, 100, fl (1 / 500), 0, 10⟩

theorem programSpectral_ratio (hfl : RoundsAll fl) :
    |spectralRatio (programSpectral fl) 9 99 - 2518 / 10| ≤ 1 / 10 := by
  have h1 := abs_le.1 (hfl.error (1 / 100))
  have h2 := abs_le.1 (hfl.error (1 / 500))
  rw [abs_of_pos (by norm_num)] at h1 h2
  have kx1 : (1 / 100 - 1 / 10 ^ 12 : ℝ) ≤ (fl (1 / 100) : Rat) := by
    have : (1 / 100 - 1 / 10 ^ 12 : Rat) ≤ fl (1 / 100) := by norm_num at h1 ⊢; linarith [h1.1]
    have := (Rat.cast_le (K := ℝ)).2 this
    push_cast at this
    exact this
  have kx2 : ((fl (1 / 100) : Rat) : ℝ) ≤ 1 / 100 + 1 / 10 ^ 12 := by
    have : fl (1 / 100) ≤ (1 / 100 + 1 / 10 ^ 12 : Rat) := by norm_num at h1 ⊢; linarith [h1.2]
    have := (Rat.cast_le (K := ℝ)).2 this
    push_cast at this
    exact this
  have ky1 : (1 / 500 - 1 / 10 ^ 12 : ℝ) ≤ (fl (1 / 500) : Rat) := by
    have : (1 / 500 - 1 / 10 ^ 12 : Rat) ≤ fl (1 / 500) := by norm_num at h2 ⊢; linarith [h2.1]
    have := (Rat.cast_le (K := ℝ)).2 this
    push_cast at this
    exact this
  have ky2 : ((fl (1 / 500) : Rat) : ℝ) ≤ 1 / 500 + 1 / 10 ^ 12 := by
    have : fl (1 / 500) ≤ (1 / 500 + 1 / 10 ^ 12 : Rat) := by norm_num at h2 ⊢; linarith [h2.2]
    have := (Rat.cast_le (K := ℝ)).2 this
    push_cast at this
    exact this
  have e : spectralRatio (programSpectral fl) 9 99 =
      5 * (((fl (1 / 100) : Rat) : ℝ) * (81 / 4) + ((fl (1 / 500) : Rat) : ℝ) * (9801 / 4)) * Real.pi ^ 2 := by
    simp only [spectralRatio, spectralStep, realParams, programSpectral]
    push_cast
    rw [div_div_eq_mul_div]
    ring
  generalize ((fl (1 / 100) : Rat) : ℝ) = kx at *
  generalize ((fl (1 / 500) : Rat) : ℝ) = ky at *
  have q1 : (9.8690 : ℝ) ≤ Real.pi ^ 2 := by nlinarith [Real.pi_gt_d4]
  have q2 : Real.pi ^ 2 ≤ (9.8697 : ℝ) := by nlinarith [Real.pi_lt_d4, Real.pi_pos]
  have s1 : (5.1029999 : ℝ) ≤ kx * (81 / 4) + ky * (9801 / 4) := by norm_num at *; linarith
  have s2 : kx * (81 / 4) + ky * (9801 / 4) ≤ (5.1030001 : ℝ) := by norm_num at *; linarith
  rw [e, abs_le]
  generalize kx * (81 / 4) + ky * (9801 / 4) = s at *
  generalize Real.pi ^ 2 = q at *
  constructor <;> norm_num at * <;> nlinarith

theorem programSpectral_step (hfl : RoundsAll fl) : 0 < spectralStep (realParams (programSpectral fl)) 9 99 := by
  have hkx : 0 < (programSpectral fl).kx := fl_pos hfl (by norm_num)
  have hky : 0 < (programSpectral fl).ky := fl_pos hfl (by norm_num)
  have h1 : (0 : ℝ) < (realParams (programSpectral fl)).kx := Rat.cast_pos.2 hkx
  have h2 : (0 : ℝ) < (realParams (programSpectral fl)).ky := Rat.cast_pos.2 hky
  have := Real.pi_pos
  rw [spectralStep]
  have e1 : (realParams (programSpectral fl)).xEnd - (realParams (programSpectral fl)).xStart = 2 := by
    norm_num [realParams, programSpectral]
  have e2 : (realParams (programSpectral fl)).yEnd - (realParams (programSpectral fl)).yStart = 2 := by
    norm_num [realParams, programSpectral]
  rw [e1, e2]
  positivity

theorem programSpectral_setting (hfl : RoundsAll fl) : RoundedSpectralSetting (programSpectral fl) 9 99 1 := by
  have hr := (abs_le.1 (programSpectral_ratio hfl)).2
  have hkx : 0 < (programSpectral fl).kx := fl_pos hfl (by norm_num)
  have hky : 0 < (programSpectral fl).ky := fl_pos hfl (by norm_num)
  refine ⟨by norm_num [programSpectral], by norm_num [programSpectral], by norm_num [programSpectral], hkx, hky, rfl, rfl,
    by omega, by omega, by omega, by omega, by norm_num [programSpectral], by norm_num [programSpectral], by omega, ?_⟩
  have hs := programSpectral_step hfl
  rw [spectralRatio] at hr
  rw [← div_le_iff₀ hs]
  norm_num at hr ⊢
  linarith

/-- With the constants of the program and a library that is exact up to `2⁻⁵⁰`, there are 252 steps and the result is that of
exact arithmetic up to 10⁻⁷, relative to the initial temperatures. -/
theorem C86_example (hfl : RoundsAll fl) {L : Rounded.FFTLibrary} (hL : FFTLibrary.Accurate L 2 (1 / 2 ^ 50))
    (temp : Rat → Rat → Rat) (junk : List Nat → Rat) (order : List (List I64)) (ho : order.Perm (Support.policy [9, 99]))
    (orders : Nat → List (List I64)) (hos : ∀ i, (orders i).Perm (Support.policy [9, 50])) :
    ∃ r, ∃ xs ys : Nat → Rat, RoundedSpectral.main fl sq L (programSpectral fl) temp junk order orders = .ok r ∧
      CellsNear (-1) 1 9 xs ∧ CellsNear (-1) 1 99 ys ∧
      ∃ e : Nat → Nat → ℝ, (∀ k l, k < 9 → l < 99 → spectrum 9 99 e k l =
          (eulerFactor (realParams (programSpectral fl)) 9 99 (spectralStep (realParams (programSpectral fl)) 9 99) k l : ℂ) ^ 252 *
            spectrum 9 99 (fun i j => temp (xs i) (ys j)) k l) ∧
        rootSum 9 99 (fun i j => r [i, j] - e i j) ≤ 1 / 10 ^ 7 * rootSum 9 99 (fun i j => temp (xs i) (ys j)) := by
  obtain ⟨r, M, xs, ys, h1, -, h3, h4, h5, h6, -, h8⟩ := C86_modes (sq := sq) hfl (by positivity) hL (programSpectral_setting hfl) temp
    junk order ho orders hos
  have hr := abs_le.1 (programSpectral_ratio hfl)
  obtain rfl : M = 252 := by
    have a : (M : ℝ) < 253 := by linarith
    have b : (251 : ℝ) < M := by linarith
    have a' : M < 253 := by exact_mod_cast a
    have b' : 251 < M := by exact_mod_cast b
    omega
  obtain ⟨e, he⟩ := C86_reference (programSpectral_setting hfl) 252 (fun i j => temp (xs i) (ys j))
  refine ⟨r, xs, ys, h1, h5, h6, e, he, (h8 e he).trans ?_⟩
  refine mul_le_mul_of_nonneg_right ?_ (Real.sqrt_nonneg _)
  have t1 : spectralTol 9 99 1 (1 / 2 ^ 50) ≤ 1 / 10 ^ 9 / 4 := by rw [spectralTol]; norm_num
  have t0 := spectralTol_nonneg 9 99 1 (η := 1 / 2 ^ 50) (by positivity)
  have := pow_le_pow_left₀ (by linarith) (add_le_add (le_refl (1 : ℝ)) t1) 252
  have t2 : (1 + 1 / 10 ^ 9 / 4 : ℝ) ^ 252 ≤ 1 + 1 / 10 ^ 7 := by norm_num
  linarith

/-- Each of these steps has the largest stable length, not that of the time domain: the 252 steps go beyond the end of the interval. -/
theorem C86_overrun (hfl : RoundsAll fl) :
    10 + 3 / 10 ^ 3 < 252 * spectralStep (realParams (programSpectral fl)) 9 99 ∧
      251 * spectralStep (realParams (programSpectral fl)) 9 99 < 10 := by
  have hs := programSpectral_step hfl
  have hr := abs_le.1 (programSpectral_ratio hfl)
  have e : spectralRatio (programSpectral fl) 9 99 * spectralStep (realParams (programSpectral fl)) 9 99 = 10 := by
    rw [spectralRatio, div_mul_cancel₀ _ hs.ne']
    norm_num [realParams, programSpectral]
  generalize spectralRatio (programSpectral fl) 9 99 = a at *
  generalize spectralStep (realParams (programSpectral fl)) 9 99 = s at *
  have h1 := mul_le_mul_of_nonneg_right (show a ≤ 2519 / 10 by linarith [hr.2]) hs.le
  have h2 := mul_le_mul_of_nonneg_right (show 2517 / 10 ≤ a by linarith [hr.1]) hs.le
  constructor <;> linarith

example : RoundsAll round53 ∧ FFTLibrary.Accurate (accurateLibrary (1 / 2 ^ 50)) 2 (1 / 2 ^ 50) :=
  ⟨round53_all, accurateLibrary_ok 2 (by positivity)⟩

end DDC.Props
