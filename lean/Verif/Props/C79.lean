import Verif.Lemmas.Spectral

/-!
# C79 — the heat equation of the examples by Fourier transforms
-/

namespace DDC.Props

open Tup Spec Spectral Grid2 Fourier Finset
open One (seg el vec)
open Heat (Params ceilCast ceilCast_ok)
open scoped ComplexConjugate

set_option linter.unusedSectionVars false

/-- Specification: the discrete Fourier transform of `n × m` numbers. -/
noncomputable def spectrum (n m : Nat) (f : Nat → Nat → ℝ) (k l : Nat) : ℂ :=
  ∑ i ∈ range n, ∑ j ∈ range m,
    Complex.exp (-(2 * Real.pi * ((k : ℝ) * i / n + (l : ℝ) * j / m) : ℝ) * Complex.I) * f i j

/-- The number from `-n / 2` on, below `n / 2`, that is congruent to `k` modulo `n`. -/
def signedMode (n k : Nat) : Int := if 2 * k < n then k else k - n

/-- The wave number of mode `k` of `n` points of a period `[a, b)`. -/
noncomputable def waveNumber (a b : ℝ) (n k : Nat) : ℝ := 2 * Real.pi * signedMode n k / (b - a)

/-- The time step of the program: `2 / (kx π² / dx² + ky π² / dy²)`. -/
noncomputable def spectralStep (p : Params ℝ) (n m : Nat) : ℝ :=
  2 / (p.kx * (Real.pi / ((p.xEnd - p.xStart) / n)) ^ 2 + p.ky * (Real.pi / ((p.yEnd - p.yStart) / m)) ^ 2)

/-- The factor by which an explicit step of length `dt` of `u' = kx u_xx + ky u_yy` multiplies a mode. -/
noncomputable def eulerFactor (p : Params ℝ) (n m : Nat) (dt : ℝ) (k l : Nat) : ℝ :=
  1 - dt * (p.kx * waveNumber p.xStart p.xEnd n k ^ 2 + p.ky * waveNumber p.yStart p.yEnd m l ^ 2)

/-- The initial temperature at the points. -/
noncomputable def periodicHeat (p : Params ℝ) (n m : Nat) (temp : ℝ → ℝ → ℝ) (i j : Nat) : ℝ :=
  temp (p.xStart + i * ((p.xEnd - p.xStart) / n)) (p.yStart + j * ((p.yEnd - p.yStart) / m))

/-- What is asked of the parameters: the intervals are not empty, there are `n × m` points besides the periodic ones, the
conductivities are positive; `M` is the smallest number of steps that cover the time interval. -/
structure SpectralSetting (p : Params ℝ) (n m M : Nat) : Prop where
  xs : p.xStart < p.xEnd
  ys : p.yStart < p.yEnd
  ts : p.startTime < p.endTime
  kxp : 0 < p.kx
  kyp : 0 < p.ky
  enx : p.nx = BitVec.ofNat 64 (n + 1)
  eny : p.ny = BitVec.ofNat 64 (m + 1)
  x2 : 2 ≤ n
  y2 : 2 ≤ m
  xb : n ≤ 2 ^ 31
  yb : m ≤ 2 ^ 31
  cover : p.endTime - p.startTime ≤ M * spectralStep p n m
  least : ∀ k : Nat, p.endTime - p.startTime ≤ k * spectralStep p n m → M ≤ k
  tb : M + 1 < 2 ^ 63

theorem spectrum_dft (n m : Nat) (f : List Nat → ℝ) (k l : Nat) :
    spectrum n m (fun i j => f [i, j]) k l = dft (-1) [n, m] (fun xs => (f xs : ℂ)) [k, l] := by
  rw [spectrum, dft]
  simp only [boxSum]
  refine sum_congr rfl (fun i _ => sum_congr rfl (fun j _ => ?_))
  simp only [wave, mul_one]
  rw [← Complex.exp_add]
  congr 2
  push_cast
  ring

theorem spectrum_congr {n m : Nat} {f g : Nat → Nat → ℝ} (h : ∀ i j, i < n → j < m → f i j = g i j) (k l : Nat) :
    spectrum n m f k l = spectrum n m g k l :=
  sum_congr rfl (fun i hi => sum_congr rfl (fun j hj => by rw [h i j (mem_range.1 hi) (mem_range.1 hj)]))

theorem signedMode_unique {n k : Nat} (hk : k < n) {z : Int} (h1 : -(n : Int) ≤ 2 * z) (h2 : 2 * z < n) (h3 : (n : Int) ∣ k - z) :
    z = signedMode n k := by
  obtain ⟨c, hc⟩ := h3
  have hc1 : -1 < c := by
    by_contra h
    have := mul_le_mul_of_nonneg_left (show c ≤ -1 by omega) (show (0 : Int) ≤ n by omega)
    omega
  have hc2 : c < 2 := by
    by_contra h
    have := mul_le_mul_of_nonneg_left (show 2 ≤ c by omega) (show (0 : Int) ≤ n by omega)
    omega
  rw [signedMode]
  obtain rfl | rfl : c = 0 ∨ c = 1 := by omega
  · split_ifs <;> omega
  · split_ifs <;> omega

theorem signedMode_sq {n k : Nat} (hk : k < n) : signedMode n ((n - k) % n) * signedMode n ((n - k) % n) = signedMode n k * signedMode n k := by
  rcases Nat.eq_zero_or_pos k with rfl | h0
  · simp
  · rw [Nat.mod_eq_of_lt (by omega)]
    have : signedMode n (n - k) = signedMode n k ∨ signedMode n (n - k) = -signedMode n k := by
      rw [signedMode, signedMode]
      split_ifs <;> omega
    rcases this with e | e <;> rw [e]
    ring

section

variable {p : Params ℝ} {n m M : Nat}

theorem SpectralSetting.step_pos (h : SpectralSetting p n m M) : 0 < spectralStep p n m := by
  have hn : (0 : ℝ) < n := by have := h.x2; exact_mod_cast (by omega : 0 < n)
  have hm : (0 : ℝ) < m := by have := h.y2; exact_mod_cast (by omega : 0 < m)
  have h1 : 0 < (p.xEnd - p.xStart) / n := div_pos (by linarith [h.xs]) hn
  have h2 : 0 < (p.yEnd - p.yStart) / m := div_pos (by linarith [h.ys]) hm
  have h3 := mul_pos h.kxp (pow_pos (div_pos Real.pi_pos h1) 2)
  have h4 := mul_pos h.kyp (pow_pos (div_pos Real.pi_pos h2) 2)
  exact div_pos two_pos (by linarith)

theorem SpectralSetting.pos (h : SpectralSetting p n m M) : 0 < M := by
  rcases Nat.eq_zero_or_pos M with h0 | h0
  · have h1 := h.cover
    have h2 := h.ts
    rw [h0, Nat.cast_zero, zero_mul] at h1
    linarith
  · exact h0

theorem SpectralSetting.ceil (h : SpectralSetting p n m M) :
    ⌈(p.endTime - p.startTime) / spectralStep p n m⌉ = (M : Int) := by
  have hs := h.step_pos
  have hp := h.pos
  refine le_antisymm ?_ ?_
  · rw [Int.ceil_le, Int.cast_natCast, div_le_iff₀ hs]
    exact h.cover
  · by_contra hlt
    push Not at hlt
    have h1 : ⌈(p.endTime - p.startTime) / spectralStep p n m⌉ ≤ ((M - 1 : Nat) : Int) := by omega
    rw [Int.ceil_le, Int.cast_natCast, div_le_iff₀ hs] at h1
    have := h.least _ h1
    omega

theorem wave_ready {ft t : Dim} {a b : ℝ} (hab : a < b) {n : Nat} (h2 : 2 ≤ n) (hb : n ≤ 2 ^ 31) :
    ∃ f, FFT.initFourierSpace ft t ⟨a, (b - a) / (n : ℝ), el t 0⟩ (seg t 0 n) = .ok f ∧
      ∀ k, k < n → f.coordinate (el ft k) = .ok (waveNumber a b n k) := by
  have hn : (0 : ℝ) < n := by exact_mod_cast (by omega : 0 < n)
  have hlen : len t (seg t 0 n) = n := by rw [len, seg_hi (by omega), seg_lo (by omega)]; omega
  have hst : 0 < (b - a) / (n : ℝ) := div_pos (by linarith) hn
  obtain ⟨f, f1, _, _, f4⟩ := C49_wave_numbers_partial ft t ⟨a, (b - a) / (n : ℝ), el t 0⟩ (seg t 0 n)
    ⟨by simp [seg], by intro q hq; obtain rfl : q = t := by simpa [seg] using hq
                       rw [hlen, seg_hi (by omega), seg_lo (by omega)]; omega⟩
    rfl rfl hst (by rw [seg_hi (by omega)]; omega) (by rw [hlen]; exact h2) (by rw [hlen]; exact hb)
  refine ⟨f, f1, ?_⟩
  intro k hk
  obtain ⟨z, z1, z2, z3, z4⟩ := f4 k (by rw [hlen]; exact hk)
  rw [hlen] at z1 z2 z3 z4
  rw [el, z1, signedMode_unique hk z2 z3 z4, waveNumber]
  congr 2
  field_simp

/-- `main` ends, whatever the order of the iterations of its kernels, and a mode of the temperatures at the end is that of the
initial ones times the `M`-th power of the factor of an explicit step of length `spectralStep`. -/
theorem C79_modes {L : FFT.Library} (hL : Library.Exact L 2) (h : SpectralSetting p n m M) (temp : ℝ → ℝ → ℝ)
    (junk : List Nat → ℝ) (order : List (List I64))
    (ho : order.Perm (Support.policy [BitVec.ofNat 64 n, BitVec.ofNat 64 m])) (orders : Nat → List (List I64))
    (hos : ∀ i, (orders i).Perm (Support.policy [BitVec.ofNat 64 n, BitVec.ofNat 64 (m / 2 + 1)])) :
    ∃ r, Spectral.main L p temp junk order orders = .ok r ∧ ∀ k l, k < n → l < m →
      spectrum n m (fun i j => r [i, j]) k l =
        (eulerFactor p n m (spectralStep p n m) k l : ℂ) ^ M * spectrum n m (periodicHeat p n m temp) k l := by
  have hx2 := h.x2; have hy2 := h.y2; have hxb := h.xb; have hyb := h.yb
  have hn : (0 : ℝ) < n := by exact_mod_cast (by omega : 0 < n)
  have hm : (0 : ℝ) < m := by exact_mod_cast (by omega : 0 < m)
  obtain ⟨dx, hdx⟩ : ∃ dx, dx = (p.xEnd - p.xStart) / (n : ℝ) := ⟨_, rfl⟩
  obtain ⟨dy, hdy⟩ : ∃ dy, dy = (p.yEnd - p.yStart) / (m : ℝ) := ⟨_, rfl⟩
  have hdx0 : 0 < dx := by rw [hdx]; exact div_pos (by linarith [h.xs]) hn
  have hdy0 : 0 < dy := by rw [hdy]; exact div_pos (by linarith [h.ys]) hm
  have i1 := init_nat Dim.x p.xStart p.xEnd h.xs (n + 1) (by omega) (by omega)
  have i2 := init_nat Dim.y p.yStart p.yEnd h.ys (m + 1) (by omega) (by omega)
  have i3 := init_nat Dim.t p.startTime p.endTime h.ts (M + 1) (by have := h.pos; omega) h.tb
  rw [show n + 1 - 1 = n by omega, ← hdx] at i1
  rw [show m + 1 - 1 = m by omega, ← hdy] at i2
  obtain ⟨fx, fx1, fx2⟩ := wave_ready (ft := Dim.fx) (t := Dim.x) h.xs hx2 hxb
  obtain ⟨fy, fy1, fy2⟩ := wave_ready (ft := Dim.fy) (t := Dim.y) h.ys hy2 hyb
  rw [← hdx] at fx1
  rw [← hdy] at fy1
  obtain ⟨u, hu⟩ : ∃ u : Dim → Uniform Dim ℝ, u = fun t => if t = .y then ⟨p.yStart, dy, el Dim.y 0⟩ else ⟨p.xStart, dx, el Dim.x 0⟩ :=
    ⟨_, rfl⟩
  have hxy : Dim.x ≠ Dim.y := by decide
  have hmesh : UniformMesh u 1 (seg2 Dim.x Dim.y 0 n 0 m) := by
    refine ⟨seg2_valid hxy (by omega) (by omega) (by omega) (by omega), by simp [seg2], ?_, ?_, ?_, ?_⟩ <;>
    · intro t ht
      rw [tags_seg2] at ht
      simp only [List.mem_cons, List.not_mem_nil, or_false] at ht
      rcases ht with rfl | rfl
      all_goals first
        | rw [hu]; rfl
        | (rw [hu]; exact hdx0)
        | (rw [hu]; exact hdy0)
        | (rw [hi_x (by omega)]; omega)
        | (rw [hi_y hxy (by omega)]; omega)
        | (rw [len, hi_x (by omega), lo_x (by omega)]; omega)
        | (rw [len, hi_y hxy (by omega), lo_y hxy (by omega)]; omega)
  have R : Ready L u n m fx fy (waveNumber p.xStart p.xEnd n) (waveNumber p.yStart p.yEnd m) := by
    have hsq : ∀ (a b : ℝ) (n k : Nat), k < n →
        waveNumber a b n ((n - k) % n) * waveNumber a b n ((n - k) % n) = waveNumber a b n k * waveNumber a b n k := by
      intro a b n k hk
      have e : (signedMode n ((n - k) % n) : ℝ) * signedMode n ((n - k) % n) = signedMode n k * signedMode n k := by
        exact_mod_cast signedMode_sq hk
      have e2 : ∀ z : ℝ, 2 * Real.pi * z / (b - a) * (2 * Real.pi * z / (b - a)) = (2 * Real.pi / (b - a)) ^ 2 * (z * z) := by
        intro z; ring
      rw [waveNumber, waveNumber, e2, e2, e]
    exact ⟨hL, hmesh, hx2, hy2, by omega, by omega, fx2, fy2, fun k hk => hsq _ _ _ k hk, fun l hl => hsq _ _ _ l hl⟩
  have hco : ∀ (t : Dim) (a d : ℝ) (i : Nat), i < 2 ^ 63 → (⟨a, d, el t 0⟩ : Uniform Dim ℝ).coordinate (el t i) = .ok (a + (i : ℝ) * d) := by
    intro t a d i hi
    exact coordinate_el rfl hi
  obtain ⟨f, f1, f2⟩ := initial_ok (n := n) (m := m) (by omega) (by omega) (fun i hi => hco .x p.xStart dx i (by omega))
    (fun j hj => hco .y p.yStart dy j (by omega)) temp junk ho
  have hdt : 2 / (p.kx * (Real.pi / dx) * (Real.pi / dx) + p.ky * (Real.pi / dy) * (Real.pi / dy)) = spectralStep p n m := by
    rw [spectralStep, ← hdx, ← hdy]
    congr 1
    ring
  obtain ⟨r, r1, r2⟩ := timeLoop_ok R p.kx p.ky (spectralStep p n m) hos M 0 f
  refine ⟨r, ?_, ?_⟩
  · obtain ⟨t1, t2⟩ := time_nat Dim.t M h.tb
    have hadd : Vect.addInt [(Dim.t, BitVec.ofNat 64 M)] 1 = .ok [(Dim.t, BitVec.ofNat 64 (M + 1))] := by
      have : (1 : I64) = BitVec.ofNat 64 1 := rfl
      rw [Vect.addInt, this, One.sAdd_nat h.tb]; rfl
    have hMn : (BitVec.ofNat 64 M).toNat = M := toNat_small (by have := h.tb; omega)
    rw [Spectral.main, h.enx, h.eny, i1, Res.ok_bind]
    simp only [removeLast_nat Dim.x n (by omega), removeLast_nat Dim.y m (by omega), Res.ok_bind, i2, hdt,
      ceilCast_ok h.ceil (show M < 2 ^ 63 by have := h.tb; omega), hadd, i3, ofDomains_two hxy, f1, fx1, fy1,
      mesh_nat (show n < 2 ^ 63 by omega) (show m < 2 ^ 63 by omega), t1, t2, hMn, ← hu, r1]
  · intro k l hk hl
    rw [spectrum_dft, r2 [k, l] (within_two.2 ⟨k, l, hk, hl, rfl⟩), ← spectrum_dft]
    congr 1
    · congr 2
      rw [lam, eulerFactor]
      ring
    · refine spectrum_congr (fun i j hi hj => ?_) k l
      rw [f2 i j hi hj, periodicHeat, hdx, hdy]

end

/-- The spectrum determines the temperatures. -/
theorem C79_determined {n m : Nat} {f g : Nat → Nat → ℝ} (h : ∀ k l, k < n → l < m → spectrum n m f k l = spectrum n m g k l)
    (i j : Nat) (hi : i < n) (hj : j < m) : f i j = g i j := by
  have e : ∀ f : Nat → Nat → ℝ, ∀ k l, spectrum n m f k l =
      dft (-1) [n, m] (fun xs => (((fun xs => f (xs.getD 0 0) (xs.getD 1 0)) xs : ℝ) : ℂ)) [k, l] := by
    intro f k l
    rw [← spectrum_dft]; rfl
  have hw : Within [n, m] [i, j] := within_two.2 ⟨i, j, hi, hj, rfl⟩
  have h1 := dft_dft (s := -1) (Or.inr rfl) [n, m] (fun xs => (((fun xs => f (xs.getD 0 0) (xs.getD 1 0)) xs : ℝ) : ℂ)) hw
  have h2 := dft_dft (s := -1) (Or.inr rfl) [n, m] (fun xs => (((fun xs => g (xs.getD 0 0) (xs.getD 1 0)) xs : ℝ) : ℂ)) hw
  rw [dft_congr (g := dft (-1) [n, m] (fun xs => (((fun xs => g (xs.getD 0 0) (xs.getD 1 0)) xs : ℝ) : ℂ))) (by
    intro ks hk
    obtain ⟨k, l, a1, a2, rfl⟩ := within_two.1 hk
    rw [← e, ← e, h k l a1 a2]), h2] at h1
  have hp : (([n, m] : List Nat).prod : ℂ) ≠ 0 := by
    simp only [List.prod_cons, List.prod_nil, mul_one]
    exact_mod_cast Nat.mul_ne_zero (by omega) (by omega)
  have := mul_left_cancel₀ hp h1
  simpa using this.symm

section

variable {p : Params ℝ} {n m M : Nat}

theorem waveNumber_le {a b : ℝ} (hab : a < b) {n k : Nat} (hk : k < n) : waveNumber a b n k ^ 2 ≤ (Real.pi / ((b - a) / n)) ^ 2 := by
  have hn : (0 : ℝ) < n := by exact_mod_cast (by omega : 0 < n)
  have hd : 0 < b - a := by linarith
  have h1 : (4 : ℝ) * (signedMode n k : ℝ) ^ 2 ≤ (n : ℝ) ^ 2 := by
    have : 4 * signedMode n k ^ 2 ≤ (n : Int) ^ 2 := by
      have h1 : -(n : Int) ≤ 2 * signedMode n k := by rw [signedMode]; split_ifs <;> omega
      have h2 : 2 * signedMode n k ≤ n := by rw [signedMode]; split_ifs <;> omega
      nlinarith
    exact_mod_cast this
  have e1 : waveNumber a b n k ^ 2 = (Real.pi / (b - a)) ^ 2 * (4 * (signedMode n k : ℝ) ^ 2) := by
    rw [waveNumber]; ring
  have e2 : (Real.pi / ((b - a) / n)) ^ 2 = (Real.pi / (b - a)) ^ 2 * (n : ℝ) ^ 2 := by
    field_simp
  rw [e1, e2]
  exact mul_le_mul_of_nonneg_left h1 (sq_nonneg _)

/-- No mode is amplified, the mean is kept, every other mode is damped or changes its sign. -/
theorem C79_stable (h : SpectralSetting p n m M) {k l : Nat} (hk : k < n) (hl : l < m) :
    |eulerFactor p n m (spectralStep p n m) k l| ≤ 1 ∧ eulerFactor p n m (spectralStep p n m) 0 0 = 1 ∧
      ((k, l) ≠ (0, 0) → eulerFactor p n m (spectralStep p n m) k l < 1) := by
  have hx2 := h.x2; have hy2 := h.y2
  have h1 := waveNumber_le h.xs hk
  have h2 := waveNumber_le h.ys hl
  have hs := h.step_pos
  have hS : 0 < p.kx * (Real.pi / ((p.xEnd - p.xStart) / n)) ^ 2 + p.ky * (Real.pi / ((p.yEnd - p.yStart) / m)) ^ 2 := by
    have := hs
    rw [spectralStep] at this
    by_contra hc
    have := div_nonpos_of_nonneg_of_nonpos (show (0 : ℝ) ≤ 2 by norm_num) (not_lt.1 hc)
    linarith
  have e : spectralStep p n m *
      (p.kx * (Real.pi / ((p.xEnd - p.xStart) / n)) ^ 2 + p.ky * (Real.pi / ((p.yEnd - p.yStart) / m)) ^ 2) = 2 := by
    rw [spectralStep, div_mul_cancel₀ _ hS.ne']
  have hkx := h.kxp
  have hky := h.kyp
  have a1 := mul_le_mul_of_nonneg_left h1 hkx.le
  have a2 := mul_le_mul_of_nonneg_left h2 hky.le
  have a3 := mul_le_mul_of_nonneg_left (add_le_add a1 a2) hs.le
  have b1 : 0 ≤ p.kx * waveNumber p.xStart p.xEnd n k ^ 2 := by positivity
  have b2 : 0 ≤ p.ky * waveNumber p.yStart p.yEnd m l ^ 2 := by positivity
  have b3 := mul_nonneg hs.le (add_nonneg b1 b2)
  refine ⟨?_, ?_, ?_⟩
  · rw [eulerFactor, abs_le]
    constructor <;> linarith
  · have z : ∀ n : Nat, 2 ≤ n → signedMode n 0 = 0 := by
      intro n hn
      rw [signedMode, if_pos (by omega)]; rfl
    rw [eulerFactor, waveNumber, waveNumber, z n hx2, z m hy2]
    simp
  · intro hne
    have hz : ∀ (a b : ℝ) (n k : Nat), a < b → k < n → k ≠ 0 → 0 < waveNumber a b n k ^ 2 := by
      intro a b n k hab hk h0
      have : (signedMode n k : ℝ) ≠ 0 := by
        have : signedMode n k ≠ 0 := by rw [signedMode]; split_ifs <;> omega
        exact_mod_cast this
      have hd : b - a ≠ 0 := by linarith
      have hw : waveNumber a b n k ≠ 0 := by
        rw [waveNumber]
        exact div_ne_zero (mul_ne_zero (mul_ne_zero two_ne_zero Real.pi_ne_zero) this) hd
      positivity
    have hpos : 0 < p.kx * waveNumber p.xStart p.xEnd n k ^ 2 + p.ky * waveNumber p.yStart p.yEnd m l ^ 2 := by
      by_cases h0 : k = 0
      · have hl0 : l ≠ 0 := by
          rintro rfl
          exact hne (by rw [h0])
        have := mul_pos hky (hz p.yStart p.yEnd m l h.ys hl hl0)
        linarith
      · have := mul_pos hkx (hz p.xStart p.xEnd n k h.xs hk h0)
        linarith
    rw [eulerFactor]
    have := mul_pos hs hpos
    linarith

/-- The sum of the temperatures at the end is that at the beginning. -/
theorem C79_conservation {L : FFT.Library} (hL : Library.Exact L 2) (h : SpectralSetting p n m M) (temp : ℝ → ℝ → ℝ)
    (junk : List Nat → ℝ) (order : List (List I64))
    (ho : order.Perm (Support.policy [BitVec.ofNat 64 n, BitVec.ofNat 64 m])) (orders : Nat → List (List I64))
    (hos : ∀ i, (orders i).Perm (Support.policy [BitVec.ofNat 64 n, BitVec.ofNat 64 (m / 2 + 1)])) :
    ∃ r, Spectral.main L p temp junk order orders = .ok r ∧
      ∑ i ∈ range n, ∑ j ∈ range m, r [i, j] = ∑ i ∈ range n, ∑ j ∈ range m, periodicHeat p n m temp i j := by
  have hx2 := h.x2; have hy2 := h.y2
  obtain ⟨r, r1, r2⟩ := C79_modes hL h temp junk order ho orders hos
  refine ⟨r, r1, ?_⟩
  have h0 := r2 0 0 (by omega) (by omega)
  rw [(C79_stable h (show 0 < n by omega) (show 0 < m by omega)).2.1] at h0
  have e : ∀ f : Nat → Nat → ℝ, spectrum n m f 0 0 = ((∑ i ∈ range n, ∑ j ∈ range m, f i j : ℝ) : ℂ) := by
    intro f
    rw [spectrum]
    push_cast
    simp
  rw [e, e, Complex.ofReal_one, one_pow, one_mul] at h0
  exact_mod_cast h0

/-! ## Parseval's identity -/

theorem boxSum_comm (ns ms : List Nat) (f : List Nat → List Nat → ℂ) :
    boxSum ns (fun x => boxSum ms (fun y => f x y)) = boxSum ms (fun y => boxSum ns (fun x => f x y)) := by
  induction ns generalizing f with
  | nil => rfl
  | cons n ns ih =>
    simp only [boxSum]
    rw [boxSum_sum]
    exact sum_congr rfl (fun i _ => ih _)

theorem conj_wave (s : ℝ) (ns ks xs : List Nat) : conj (wave s ns ks xs) = wave (-s) ns xs ks := by
  induction ns generalizing ks xs with
  | nil => simp [wave]
  | cons n ns ih =>
    match ks, xs with
    | [], [] => simp [wave]
    | [], _ :: _ => simp [wave]
    | _ :: _, [] => simp [wave]
    | k :: ks, x :: xs =>
      simp only [wave, map_mul, ih]
      rw [← Complex.exp_conj, map_mul, Complex.conj_I, Complex.conj_ofReal]
      congr 2
      push_cast
      ring

theorem dft_parseval (ns : List Nat) (f : List Nat → ℂ) :
    boxSum ns (fun ks => conj (dft (-1) ns f ks) * dft (-1) ns f ks) = (ns.prod : ℂ) * boxSum ns (fun xs => conj (f xs) * f xs) := by
  have h1 : ∀ ks, conj (dft (-1) ns f ks) * dft (-1) ns f ks =
      boxSum ns (fun xs => conj (f xs) * (wave 1 ns xs ks * dft (-1) ns f ks)) := by
    intro ks
    rw [show conj (dft (-1) ns f ks) = boxSum ns (fun xs => wave 1 ns xs ks * conj (f xs)) by
      rw [dft, conj_boxSum]
      exact boxSum_congr (fun xs _ => by rw [map_mul, conj_wave, _root_.neg_neg]), mul_comm, mul_boxSum]
    exact boxSum_congr (fun xs _ => by ring)
  rw [boxSum_congr (fun ks _ => h1 ks), boxSum_comm, mul_boxSum]
  refine boxSum_congr (fun xs hx => ?_)
  rw [← mul_boxSum, ← dft]
  have := dft_dft (s := -1) (Or.inr rfl) ns f hx
  rw [_root_.neg_neg] at this
  rw [this]; ring

theorem spectrum_parseval (n m : Nat) (f : Nat → Nat → ℝ) :
    ∑ k ∈ range n, ∑ l ∈ range m, Complex.normSq (spectrum n m f k l) = n * m * ∑ i ∈ range n, ∑ j ∈ range m, f i j ^ 2 := by
  have h := dft_parseval [n, m] (fun xs => ((f (xs.getD 0 0) (xs.getD 1 0) : ℝ) : ℂ))
  simp only [boxSum] at h
  have e : ∀ k l, dft (-1) [n, m] (fun xs => ((f (xs.getD 0 0) (xs.getD 1 0) : ℝ) : ℂ)) [k, l] = spectrum n m f k l := by
    intro k l
    exact (spectrum_dft n m (fun xs => f (xs.getD 0 0) (xs.getD 1 0)) k l).symm
  simp only [e, ← Complex.normSq_eq_conj_mul_self, Complex.normSq_ofReal] at h
  simp only [List.prod_cons, List.prod_nil, mul_one] at h
  have h' : ((∑ k ∈ range n, ∑ l ∈ range m, Complex.normSq (spectrum n m f k l) : ℝ) : ℂ) =
      ((n * m * ∑ i ∈ range n, ∑ j ∈ range m, f i j ^ 2 : ℝ) : ℂ) := by
    push_cast
    push_cast at h
    rw [h]
    congr 1
    refine sum_congr rfl (fun i _ => sum_congr rfl (fun j _ => ?_))
    simp [pow_two]
  exact_mod_cast h'

/-- The sum of the squares of the temperatures does not grow. -/
theorem C79_energy {L : FFT.Library} (hL : Library.Exact L 2) (h : SpectralSetting p n m M) (temp : ℝ → ℝ → ℝ)
    (junk : List Nat → ℝ) (order : List (List I64))
    (ho : order.Perm (Support.policy [BitVec.ofNat 64 n, BitVec.ofNat 64 m])) (orders : Nat → List (List I64))
    (hos : ∀ i, (orders i).Perm (Support.policy [BitVec.ofNat 64 n, BitVec.ofNat 64 (m / 2 + 1)])) :
    ∃ r, Spectral.main L p temp junk order orders = .ok r ∧
      ∑ i ∈ range n, ∑ j ∈ range m, r [i, j] ^ 2 ≤ ∑ i ∈ range n, ∑ j ∈ range m, periodicHeat p n m temp i j ^ 2 := by
  have hx2 := h.x2; have hy2 := h.y2
  obtain ⟨r, r1, r2⟩ := C79_modes hL h temp junk order ho orders hos
  refine ⟨r, r1, ?_⟩
  have hn : (0 : ℝ) < n := by exact_mod_cast (by omega : 0 < n)
  have hm : (0 : ℝ) < m := by exact_mod_cast (by omega : 0 < m)
  refine le_of_mul_le_mul_left ?_ (mul_pos hn hm)
  rw [← spectrum_parseval n m (fun i j => r [i, j]), ← spectrum_parseval]
  refine sum_le_sum (fun k hk => sum_le_sum (fun l hl => ?_))
  have hk := mem_range.1 hk
  have hl := mem_range.1 hl
  rw [r2 k l hk hl, map_mul, map_pow, Complex.normSq_ofReal]
  refine mul_le_of_le_one_left (Complex.normSq_nonneg _) ?_
  have := (C79_stable h hk hl).1
  rw [← pow_two]
  refine pow_le_one₀ (sq_nonneg _) ?_
  rw [← sq_abs]
  exact pow_le_one₀ (abs_nonneg _) this

/-! ## The time that is reached -/

/-- The time that the steps advance by is the interval from `startTime` to `endTime`, provided that the interval is a multiple
of the step; in any case it is not less, and less than a step more. -/
theorem C79_time_partial (h : SpectralSetting p n m M) :
    (p.endTime - p.startTime ≤ M * spectralStep p n m ∧ M * spectralStep p n m < p.endTime - p.startTime + spectralStep p n m) ∧
      ((∃ q : Nat, p.endTime - p.startTime = q * spectralStep p n m) → M * spectralStep p n m = p.endTime - p.startTime) := by
  have hs := h.step_pos
  have hp := h.pos
  have hlt : M * spectralStep p n m < p.endTime - p.startTime + spectralStep p n m := by
    by_contra hc
    have h1 : p.endTime - p.startTime ≤ ((M - 1 : Nat) : ℝ) * spectralStep p n m := by
      rw [Nat.cast_sub (by omega), Nat.cast_one, sub_mul, one_mul]
      linarith [not_lt.1 hc]
    have := h.least _ h1
    omega
  refine ⟨⟨h.cover, hlt⟩, ?_⟩
  rintro ⟨q, hq⟩
  have h1 := h.least q hq.le
  have h2 : (q : ℝ) * spectralStep p n m ≤ M * spectralStep p n m := by rw [← hq]; exact h.cover
  have h3 : (q : ℝ) ≤ M := le_of_mul_le_mul_right h2 hs
  have : q = M := le_antisymm (by exact_mod_cast h3) h1
  rw [hq, this]

end

/-! ## Examples -/

/-- Two by two points at distance 1, conductivities 1: the step is `1 / π²`; half a step of time. -/
private noncomputable def shortParams : Params ℝ := ⟨0, 2, 3, 1, 0, 2, 3, 1, 0, 1 / (2 * Real.pi ^ 2)⟩

private theorem shortStep : spectralStep shortParams 2 2 = 1 / Real.pi ^ 2 := by
  have := Real.pi_ne_zero
  simp only [spectralStep, shortParams]
  norm_num
  field_simp
  norm_num

private theorem shortSetting : SpectralSetting shortParams 2 2 1 := by
  have hp : 0 < Real.pi ^ 2 := pow_pos Real.pi_pos 2
  refine ⟨by norm_num [shortParams], by norm_num [shortParams], ?_, by norm_num [shortParams], by norm_num [shortParams], rfl, rfl,
    by omega, by omega, by omega, by omega, ?_, ?_, by omega⟩
  · simp only [shortParams]; positivity
  · rw [shortStep]
    simp only [shortParams, Nat.cast_one, one_mul, sub_zero]
    exact one_div_le_one_div_of_le hp (by linarith)
  · intro k hk
    rw [shortStep] at hk
    by_contra h0
    obtain rfl : k = 0 := by omega
    simp only [shortParams, Nat.cast_zero, zero_mul, sub_zero] at hk
    have : 0 < 1 / (2 * Real.pi ^ 2) := by positivity
    linarith

example : SpectralSetting shortParams 2 2 1 ∧ Library.Exact exactLibrary 2 := ⟨shortSetting, exactLibrary_exact 2⟩

/-- The program does not advance by `endTime - startTime`: its steps are not those of its time domain (line 190 multiplies by
`dt`, not by `ddc::step<DDimT>()`).  Here the time domain has one interval, of half the length of the step that is made. -/
theorem C79_overrun : ∃ (p : Params ℝ) (n m M : Nat) (temp : ℝ → ℝ → ℝ), SpectralSetting p n m M ∧
    M * spectralStep p n m = 2 * (p.endTime - p.startTime) ∧
    ∀ r, Spectral.main exactLibrary p temp (fun _ => 0) (Support.policy [BitVec.ofNat 64 n, BitVec.ofNat 64 m])
        (fun _ => Support.policy [BitVec.ofNat 64 n, BitVec.ofNat 64 (m / 2 + 1)]) = .ok r →
      ∃ k l, k < n ∧ l < m ∧ spectrum n m (fun i j => r [i, j]) k l ≠
        (eulerFactor p n m ((p.endTime - p.startTime) / M) k l : ℂ) ^ M * spectrum n m (periodicHeat p n m temp) k l := by
  have hpi := Real.pi_ne_zero
  refine ⟨shortParams, 2, 2, 1, fun x _ => x, shortSetting, ?_, ?_⟩
  · rw [shortStep]
    simp only [shortParams]
    field_simp
    norm_num
  · intro r hr
    obtain ⟨r', h1, h2⟩ := C79_modes (exactLibrary_exact 2) shortSetting (fun x _ => x) (fun _ => 0) _ (List.Perm.refl _) _
      (fun _ => List.Perm.refl _)
    rw [hr] at h1
    obtain rfl := Res.ok.inj h1
    refine ⟨1, 0, by omega, by omega, ?_⟩
    rw [h2 1 0 (by omega) (by omega), pow_one, pow_one]
    have w1 : waveNumber 0 2 2 1 = -Real.pi := by
      rw [waveNumber, signedMode]; norm_num
      ring
    have w0 : waveNumber 0 2 2 0 = 0 := by
      rw [waveNumber, signedMode]; norm_num
    have e1 : eulerFactor shortParams 2 2 (spectralStep shortParams 2 2) 1 0 = 0 := by
      rw [shortStep]
      simp only [eulerFactor, shortParams, w1, w0]
      field_simp
      norm_num
    have e2 : eulerFactor shortParams 2 2 ((shortParams.endTime - shortParams.startTime) / (1 : Nat)) 1 0 = 1 / 2 := by
      simp only [eulerFactor, shortParams, w1, w0]
      field_simp
      ring
    have e3 : spectrum 2 2 (periodicHeat shortParams 2 2 (fun x _ => x)) 1 0 = -2 := by
      simp only [spectrum, periodicHeat, shortParams, sum_range_succ, sum_range_zero]
      have : Complex.exp (-(Real.pi * Complex.I)) = -1 := by rw [Complex.exp_neg, Complex.exp_pi_mul_I]; norm_num
      norm_num
      have e : -(2 * (Real.pi : ℂ) * (1 / 2) * Complex.I) = -(Real.pi * Complex.I) := by ring
      rw [e, this]
      norm_num
    rw [e1, e2, e3]
    norm_num

end DDC.Props
