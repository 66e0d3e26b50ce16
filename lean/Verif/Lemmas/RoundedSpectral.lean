import Verif.Model.RoundedSpectral
import Verif.Props.C79
import Verif.Props.C85
import Mathlib.Algebra.Order.Chebyshev
import Mathlib.Analysis.InnerProductSpace.PiL2

/-!
# The heat equation by Fourier transforms, with rounding
-/

namespace DDC.RoundedSpectral

open Tup Spec Props Grid2 Fourier Finset Spectral
open One (seg el vec)
open scoped ComplexConjugate

set_option linter.unusedSectionVars false

section amp

variable {n m : Nat}

/-- The values on the mesh as a vector. -/
noncomputable def vecOf (n m : Nat) (f : List Nat → ℂ) : EuclideanSpace ℂ (Fin n × Fin m) :=
  WithLp.toLp 2 (fun q => f [q.1.val, q.2.val])

/-- The square root of the sum of the squares. -/
noncomputable def amp (n m : Nat) (f : List Nat → ℂ) : ℝ := ‖vecOf n m f‖

theorem mass_two (f : List Nat → ℝ) : mass [n, m] f = ∑ q : Fin n × Fin m, f [q.1.val, q.2.val] := by
  rw [Fintype.sum_prod_type]
  simp only [mass]
  rw [Finset.sum_range]
  exact sum_congr rfl fun i _ => Finset.sum_range _

theorem amp_sq (f : List Nat → ℂ) : amp n m f ^ 2 = mass [n, m] (fun xs => ‖f xs‖ ^ 2) := by
  rw [amp, EuclideanSpace.norm_eq, Real.sq_sqrt (sum_nonneg fun _ _ => by positivity), mass_two]
  rfl

theorem amp_nonneg (f : List Nat → ℂ) : 0 ≤ amp n m f := norm_nonneg _

theorem amp_triangle (f g h : List Nat → ℂ) :
    amp n m (fun xs => f xs - h xs) ≤ amp n m (fun xs => f xs - g xs) + amp n m (fun xs => g xs - h xs) := by
  have : vecOf n m (fun xs => f xs - h xs) = vecOf n m (fun xs => f xs - g xs) + vecOf n m (fun xs => g xs - h xs) := by
    ext q
    simp [vecOf]
  rw [amp, this]
  exact norm_add_le _ _

theorem amp_le_add (f g : List Nat → ℂ) : amp n m f ≤ amp n m (fun xs => f xs - g xs) + amp n m g := by
  have := amp_triangle (n := n) (m := m) f g (fun _ => 0)
  simpa using this

theorem mass_le_amp (f : List Nat → ℂ) : mass [n, m] (fun xs => ‖f xs‖) ≤ √((n * m : Nat) : ℝ) * amp n m f := by
  have h0 : 0 ≤ mass [n, m] (fun xs => ‖f xs‖) := mass_nonneg fun _ => norm_nonneg _
  refine le_of_sq_le_sq ?_ (mul_nonneg (Real.sqrt_nonneg _) (amp_nonneg f))
  rw [mul_pow, Real.sq_sqrt (Nat.cast_nonneg _), amp_sq, mass_two, mass_two]
  have := sq_sum_le_card_mul_sum_sq (s := (univ : Finset (Fin n × Fin m))) (f := fun q => ‖f [q.1.val, q.2.val]‖)
  simpa using this

theorem amp_le_const {f : List Nat → ℂ} {B : ℝ} (hB : 0 ≤ B) (h : ∀ xs, Within [n, m] xs → ‖f xs‖ ≤ B) :
    amp n m f ≤ √((n * m : Nat) : ℝ) * B := by
  refine le_of_sq_le_sq ?_ (mul_nonneg (Real.sqrt_nonneg _) hB)
  rw [mul_pow, Real.sq_sqrt (Nat.cast_nonneg _), amp_sq]
  refine (mass_le (g := fun _ => B ^ 2) fun xs hx => ?_).trans ?_
  · exact pow_le_pow_left₀ (norm_nonneg _) (h xs hx) 2
  · rw [mass_const]
    simp

theorem boxSum_ofReal (ns : List Nat) (g : List Nat → ℝ) : boxSum ns (fun xs => ((g xs : ℝ) : ℂ)) = (mass ns g : ℝ) := by
  induction ns generalizing g with
  | nil => rfl
  | cons n ns ih => simp only [boxSum, mass, ih, Complex.ofReal_sum]

theorem amp_dft (f : List Nat → ℂ) : amp n m (dft (-1) [n, m] f) ^ 2 = ((n * m : Nat) : ℝ) * amp n m f ^ 2 := by
  have h := dft_parseval [n, m] f
  have e : ∀ z : ℂ, conj z * z = ((‖z‖ ^ 2 : ℝ) : ℂ) := by
    intro z
    rw [← Complex.normSq_eq_conj_mul_self, Complex.normSq_eq_norm_sq]
  simp only [e] at h
  rw [boxSum_ofReal, boxSum_ofReal] at h
  rw [amp_sq, amp_sq]
  have h' : ((mass [n, m] (fun ks => ‖dft (-1) [n, m] f ks‖ ^ 2) : ℝ) : ℂ) =
      (((n * m : Nat) : ℝ) * mass [n, m] (fun xs => ‖f xs‖ ^ 2) : ℝ) := by
    rw [h]
    simp
  exact_mod_cast h'

/-- Arrays with modes that are not larger. -/
theorem amp_le_of_modes (hn : 0 < n) (hm : 0 < m) {f g : List Nat → ℂ}
    (h : ∀ ks, Within [n, m] ks → ‖dft (-1) [n, m] f ks‖ ≤ ‖dft (-1) [n, m] g ks‖) : amp n m f ≤ amp n m g := by
  have hN : (0 : ℝ) < ((n * m : Nat) : ℝ) := by exact_mod_cast Nat.mul_pos hn hm
  refine le_of_sq_le_sq (le_of_mul_le_mul_left ?_ hN) (amp_nonneg _)
  rw [← amp_dft, ← amp_dft, amp_sq, amp_sq]
  exact mass_le fun ks hk => pow_le_pow_left₀ (norm_nonneg _) (h ks hk) 2

end amp

section filter

variable {n m : Nat} {lam : List Nat → ℝ}

/-- The array of which the modes are those of another one times factors. -/
noncomputable def filter (n m : Nat) (lam : List Nat → ℝ) (f : List Nat → ℂ) (xs : List Nat) : ℂ :=
  ((1 / ((n * m : Nat) : ℝ) : ℝ) : ℂ) * dft 1 [n, m] (fun ks => (lam ks : ℂ) * dft (-1) [n, m] f ks) xs

theorem filter_modes (hn : 0 < n) (hm : 0 < m) (f : List Nat → ℂ) {ks : List Nat} (hk : Within [n, m] ks) :
    dft (-1) [n, m] (filter n m lam f) ks = lam ks * dft (-1) [n, m] f ks := by
  have h1 : (n : ℂ) ≠ 0 := by exact_mod_cast (by omega : n ≠ 0)
  have h2 : (m : ℂ) ≠ 0 := by exact_mod_cast (by omega : m ≠ 0)
  rw [show filter n m lam f = fun xs => ((1 / ((n * m : Nat) : ℝ) : ℝ) : ℂ) *
      dft 1 [n, m] (fun ks => (lam ks : ℂ) * dft (-1) [n, m] f ks) xs from rfl, dft_mul, dft_dft (Or.inl rfl) [n, m] _ hk]
  simp only [List.prod_cons, List.prod_nil, mul_one]
  push_cast
  field_simp

theorem filter_contracts (hn : 0 < n) (hm : 0 < m) (hl : ∀ ks, Within [n, m] ks → |lam ks| ≤ 1) (f g : List Nat → ℂ) :
    amp n m (fun xs => filter n m lam f xs - filter n m lam g xs) ≤ amp n m (fun xs => f xs - g xs) := by
  refine amp_le_of_modes hn hm fun ks hk => ?_
  rw [← dft_sub, ← dft_sub, filter_modes hn hm f hk, filter_modes hn hm g hk, ← mul_sub, norm_mul, Complex.norm_real]
  exact mul_le_of_le_one_left (norm_nonneg _) (hl ks hk)

theorem filter_le (hn : 0 < n) (hm : 0 < m) (hl : ∀ ks, Within [n, m] ks → |lam ks| ≤ 1) (f : List Nat → ℂ) :
    amp n m (filter n m lam f) ≤ amp n m f := by
  refine amp_le_of_modes hn hm fun ks hk => ?_
  rw [filter_modes hn hm f hk, norm_mul, Complex.norm_real]
  exact mul_le_of_le_one_left (norm_nonneg _) (hl ks hk)

theorem iterate_contracts (hn : 0 < n) (hm : 0 < m) (hl : ∀ ks, Within [n, m] ks → |lam ks| ≤ 1) (M : Nat) (f g : List Nat → ℂ) :
    amp n m (fun xs => (filter n m lam)^[M] f xs - (filter n m lam)^[M] g xs) ≤ amp n m (fun xs => f xs - g xs) := by
  induction M generalizing f g with
  | zero => exact le_refl _
  | succ M ih => exact (ih _ _).trans (filter_contracts hn hm hl f g)

theorem iterate_modes (hn : 0 < n) (hm : 0 < m) (M : Nat) (f : List Nat → ℂ) {ks : List Nat} (hk : Within [n, m] ks) :
    dft (-1) [n, m] ((filter n m lam)^[M] f) ks = (lam ks : ℂ) ^ M * dft (-1) [n, m] f ks := by
  induction M generalizing f with
  | zero => simp
  | succ M ih =>
    rw [Function.iterate_succ_apply, ih, filter_modes hn hm f hk]
    ring

/-- A real array stays real. -/
theorem filter_real (hs : ∀ ks, Within [n, m] ks → lam (neg [n, m] ks) = lam ks) (f : List Nat → ℝ) {xs : List Nat}
    (hx : Within [n, m] xs) : (((filter n m lam (fun xs => (f xs : ℂ)) xs).re : ℝ) : ℂ) = filter n m lam (fun xs => (f xs : ℂ)) xs := by
  have hH : Hermitian [n, m] (fun ks => (lam ks : ℂ) * dft (-1) [n, m] (fun xs => (f xs : ℂ)) ks) := by
    intro ks hk
    simp only
    rw [hermitian_dft (Or.inr rfl) [n, m] f ks hk, hs ks hk, map_mul, Complex.conj_ofReal]
  have h := dft_hermitian (s := 1) (Or.inl rfl) hH hx
  rw [filter]
  rw [Complex.re_ofReal_mul, Complex.ofReal_mul]
  congr 1
  exact Complex.conj_eq_iff_re.1 h

end filter

section loop

variable {fl sq : Rat → Rat} {L : Rounded.FFTLibrary} {u : Dim → Uniform Dim Rat} {n m : Nat} {fx fy : Periodic Dim Rat}
  {wx wy : Nat → Rat} {η δ : ℝ} {lam : List Nat → ℝ}

/-- `fft` of real data with `BACKWARD`: what the library does. -/
theorem fftR_backward (hF : FFTLibrary.Accurate L 2 η) (hn : 0 < n) (hm : 0 < m) (hnb : n < 2 ^ 63) (hmb : m < 2 ^ 63)
    (f : List Nat → Rat) :
    ∃ g, Rounded.fftR fl sq L u (seg2 .fx .fy 0 n 0 (m / 2 + 1)) (seg2 .x .y 0 n 0 m) .backward f = .ok g ∧
      ∀ ks, Within [n, m / 2 + 1] ks → ‖toC (g ks) - dft (-1) [n, m] (fun xs => ((f xs : ℝ) : ℂ)) ks‖ ≤
        η * mass [n, m] (fun xs => ‖((f xs : ℝ) : ℂ)‖) := by
  have hxy : Dim.x ≠ Dim.y := by decide
  have hf : Dim.fx ≠ Dim.fy := by decide
  have hvx := seg2_valid hxy (a := 0) (b := n) (c := 0) (d := m) (by omega) hnb (by omega) hmb
  have hvk := seg2_valid hf (a := 0) (b := n) (c := 0) (d := m / 2 + 1) (by omega) hnb (by omega) (by omega)
  obtain ⟨g, hg, hg2⟩ := hF.rfftn .backward [n, m] f rfl (by simp; omega)
  refine ⟨g, ?_, fun ks hk => ?_⟩
  · have hr : FFT.ranks (seg2 Dim.x Dim.y 0 n 0 m) (seg2 Dim.fx Dim.fy 0 n 0 (m / 2 + 1)) = .ok () :=
      ranks_ok rfl (by simp [seg2])
    rw [Rounded.fftR, Rounded.fftImplRC, hr, Res.ok_bind, shape_eq hvx, Res.ok_bind, shape_eq hvk,
      Res.ok_bind, show decide (FFT.Dir.forward = FFT.Dir.forward) = true from rfl, Res.guardAbort_true, Res.ok_bind,
      axes_eq hvx.1, sizes_seg2 hxy hnb hmb, sizes_seg2 hf hnb (by omega)]
    change (do let out ← L.rfftn (List.range 2) .backward [n, m] [n, m / 2 + 1] f; _) = _
    rw [show ([n, m / 2 + 1] : List Nat) = halfShape [n, m] from rfl, hg, Res.ok_bind, Rounded.fftFinish, if_neg (by decide)]
    rfl
  · have := hg2 ks hk
    simpa only [libForward, Complex.ofReal_one, one_mul, toC_real] using this

/-- `ifft` to real data with `BACKWARD`. -/
theorem ifftR_backward (hF : FFTLibrary.Accurate L 2 η) (hn : 0 < n) (hm : 0 < m) (hnb : n < 2 ^ 63) (hmb : m < 2 ^ 63)
    (g : List Nat → Rat × Rat) {X : List Nat → ℂ} (hX : Hermitian [n, m] X) :
    ∃ f, Rounded.ifftR fl sq L u (seg2 .x .y 0 n 0 m) (seg2 .fx .fy 0 n 0 (m / 2 + 1)) .backward g = .ok f ∧
      ∀ xs, Within [n, m] xs → ‖((f xs : ℝ) : ℂ) - ((1 / ((n * m : Nat) : ℝ) : ℝ) : ℂ) * dft 1 [n, m] X xs‖ ≤
        1 / ((n * m : Nat) : ℝ) * (η * mass [n, m] (fun ks => ‖X ks‖) +
          (1 + η) * (2 * mass [n, m / 2 + 1] (fun ks => ‖toC (g ks) - X ks‖))) := by
  have hxy : Dim.x ≠ Dim.y := by decide
  have hf : Dim.fx ≠ Dim.fy := by decide
  have hvx := seg2_valid hxy (a := 0) (b := n) (c := 0) (d := m) (by omega) hnb (by omega) hmb
  have hvk := seg2_valid hf (a := 0) (b := n) (c := 0) (d := m / 2 + 1) (by omega) hnb (by omega) (by omega)
  obtain ⟨f, hf1, hf2⟩ := hF.irfftn .backward [n, m] g X rfl (by simp; omega) hX
  refine ⟨f, ?_, fun xs hx => ?_⟩
  · have hr : FFT.ranks (seg2 Dim.fx Dim.fy 0 n 0 (m / 2 + 1)) (seg2 Dim.x Dim.y 0 n 0 m) = .ok () :=
      ranks_ok rfl (by simp [seg2])
    rw [Rounded.ifftR, Rounded.fftImplCR, hr, Res.ok_bind, shape_eq hvk, Res.ok_bind, shape_eq hvx,
      Res.ok_bind, show decide (FFT.Dir.backward = FFT.Dir.backward) = true from rfl, Res.guardAbort_true, Res.ok_bind,
      axes_eq hvk.1, sizes_seg2 hxy hnb hmb, sizes_seg2 hf hnb (by omega)]
    change (do let out ← L.irfftn (List.range 2) .backward [n, m / 2 + 1] [n, m] g; _) = _
    rw [show ([n, m / 2 + 1] : List Nat) = halfShape [n, m] from rfl, hf1, Res.ok_bind, Rounded.fftFinish, if_neg (by decide)]
    rfl
  · have := hf2 xs hx
    have e : libBackward [n, m] .backward = 1 / ((n * m : Nat) : ℝ) := by simp [libBackward]
    rw [e, toC_real] at this
    exact this

/-- What the loop needs to know. -/
structure Ready (fl : Rat → Rat) (L : Rounded.FFTLibrary) (n m : Nat) (fx fy : Periodic Dim Rat) (wx wy : Nat → Rat)
    (kx ky dt : Rat) (lam : List Nat → ℝ) (η δ : ℝ) : Prop where
  rounds : RoundsAll fl
  accurate : FFTLibrary.Accurate L 2 η
  eta : 0 ≤ η
  n0 : 0 < n
  m0 : 0 < m
  nb : n < 2 ^ 63
  mb : m < 2 ^ 63
  cx : ∀ k, k < n → Rounded.periodicCoordinate fl fx (el .fx k) = .ok (wx k)
  cy : ∀ l, l < m → Rounded.periodicCoordinate fl fy (el .fy l) = .ok (wy l)
  sym : ∀ ks, Within [n, m] ks → lam (neg [n, m] ks) = lam ks
  stable : ∀ ks, Within [n, m] ks → |lam ks| ≤ 1
  near : ∀ k l, k < n → l < m → |((factor fl kx ky dt (wx k) (wy l) : Rat) : ℝ) - lam [k, l]| ≤ δ

/-- The error of a mode after the kernel, relative to the sum of the absolute values of the data. -/
noncomputable def modeTol (η δ : ℝ) : ℝ := (1 + δ) * (1 + 1 / 2 ^ 53) * (1 + η) - 1

/-- The error of a step, relative to the square root of the sum of the squares of the data. -/
noncomputable def stepTol (n m : Nat) (η δ : ℝ) : ℝ := (n * m : Nat) * (η + 2 * (1 + η) * modeTol η δ)

theorem scaled_near {fl : Rat → Rat} (hfl : RoundsAll fl) (c : Rat) (z : Rat × Rat) :
    ‖toC (fl (z.1 * c), fl (z.2 * c)) - ((c : ℝ) : ℂ) * toC z‖ ≤ 1 / 2 ^ 53 * (|(c : ℝ)| * ‖toC z‖) := by
  have k : ∀ x : Rat, |((fl (x * c) : Rat) : ℝ) - c * x| ≤ |(c : ℝ) * x| / 2 ^ 53 := by
    intro x
    have := (Rat.cast_le (K := ℝ)).2 (hfl.error (x * c))
    push_cast at this
    rwa [mul_comm (x : ℝ)] at this
  have e : ‖toC (fl (z.1 * c), fl (z.2 * c)) - ((c : ℝ) : ℂ) * toC z‖ =
      ‖(⟨((fl (z.1 * c) : Rat) : ℝ) - c * z.1, ((fl (z.2 * c) : Rat) : ℝ) - c * z.2⟩ : ℂ)‖ := by
    congr 1
    apply Complex.ext <;> simp [toC]
  have e2 : |(c : ℝ)| * ‖toC z‖ = ‖(⟨c * z.1, c * z.2⟩ : ℂ)‖ := by
    rw [← Real.norm_eq_abs, ← Complex.norm_real, ← norm_mul]
    congr 1
    apply Complex.ext <;> simp [toC]
  rw [e, e2]
  have key : ∀ a b a' b' t : ℝ, 0 ≤ t → |a| ≤ t * |a'| → |b| ≤ t * |b'| → ‖(⟨a, b⟩ : ℂ)‖ ≤ t * ‖(⟨a', b'⟩ : ℂ)‖ := by
    intro a b a' b' t ht h1 h2
    refine le_of_sq_le_sq ?_ (mul_nonneg ht (norm_nonneg _))
    rw [mul_pow, ← Complex.normSq_eq_norm_sq, ← Complex.normSq_eq_norm_sq, Complex.normSq_mk, Complex.normSq_mk]
    have q1 := mul_self_le_mul_self (abs_nonneg a) h1
    have q2 := mul_self_le_mul_self (abs_nonneg b) h2
    rw [abs_mul_abs_self] at q1 q2
    have r1 : t * |a'| * (t * |a'|) = t ^ 2 * (a' * a') := by rw [← abs_mul_abs_self a']; ring
    have r2 : t * |b'| * (t * |b'|) = t ^ 2 * (b' * b') := by rw [← abs_mul_abs_self b']; ring
    rw [r1] at q1
    rw [r2] at q2
    linarith
  refine key _ _ _ _ _ (by positivity) ((k _).trans (le_of_eq (by ring))) ((k _).trans (le_of_eq (by ring)))

theorem mode_near {c lam : ℝ} {G g D : ℂ} {S : ℝ} (hη : 0 ≤ η) (hl : |lam| ≤ 1) (hc : |c - lam| ≤ δ) (hD : ‖D‖ ≤ S)
    (hg : ‖g - D‖ ≤ η * S) (hG : ‖G - (c : ℂ) * g‖ ≤ 1 / 2 ^ 53 * (|c| * ‖g‖)) : ‖G - (lam : ℂ) * D‖ ≤ modeTol η δ * S := by
  have hδ : 0 ≤ δ := (abs_nonneg _).trans hc
  have hS : 0 ≤ S := (norm_nonneg _).trans hD
  have c1 : |c| ≤ 1 + δ := by
    have := abs_sub_abs_le_abs_sub c lam
    linarith
  have g1 : ‖g‖ ≤ (1 + η) * S := by
    have := norm_sub_norm_le g D
    linarith
  have e : G - (lam : ℂ) * D = (G - c * g) + (c * (g - D) + ((c - lam : ℝ) : ℂ) * D) := by push_cast; ring
  have k1 : |c| * ‖g‖ ≤ (1 + δ) * ((1 + η) * S) := mul_le_mul c1 g1 (norm_nonneg _) (by linarith)
  have k2 : ‖(c : ℂ) * (g - D)‖ ≤ (1 + δ) * (η * S) := by
    rw [norm_mul, Complex.norm_real, Real.norm_eq_abs]
    exact mul_le_mul c1 hg (norm_nonneg _) (by linarith)
  have k3 : ‖((c - lam : ℝ) : ℂ) * D‖ ≤ δ * S := by
    rw [norm_mul, Complex.norm_real, Real.norm_eq_abs]
    exact mul_le_mul hc hD (norm_nonneg _) hδ
  rw [e]
  refine (norm_add_le _ _).trans ((add_le_add hG ((norm_add_le _ _).trans (add_le_add k2 k3))).trans ?_)
  have k4 := mul_le_mul_of_nonneg_left k1 (show (0 : ℝ) ≤ 1 / 2 ^ 53 by positivity)
  rw [modeTol]
  nlinarith

theorem round_near {kx ky dt : Rat} (R : Ready fl L n m fx fy wx wy kx ky dt lam η δ) {order : List (List I64)}
    (ho : order.Perm (Support.policy [BitVec.ofNat 64 n, BitVec.ofNat 64 (m / 2 + 1)])) (last : List Nat → Rat) :
    ∃ F F' next, Rounded.fftR fl sq L u (seg2 .fx .fy 0 n 0 (m / 2 + 1)) (seg2 .x .y 0 n 0 m) .backward last = .ok F ∧
      Support.runSchedule (Dom.support (seg2 .fx .fy 0 n 0 (m / 2 + 1)))
        (kernel fl kx ky dt fx fy (seg2 .fx .fy 0 n 0 (m / 2 + 1))) order F = .ok F' ∧
      Rounded.ifftR fl sq L u (seg2 .x .y 0 n 0 m) (seg2 .fx .fy 0 n 0 (m / 2 + 1)) .backward F' = .ok next ∧
      amp n m (fun xs => ((next xs : ℝ) : ℂ) - filter n m lam (fun xs => ((last xs : ℝ) : ℂ)) xs) ≤
        stepTol n m η δ * amp n m (fun xs => ((last xs : ℝ) : ℂ)) := by
  have hf : Dim.fx ≠ Dim.fy := by decide
  have hn := R.n0
  have hm := R.m0
  have hnb := R.nb
  have hmb := R.mb
  have hη := R.eta
  obtain ⟨F, f1, f2⟩ := fftR_backward (fl := fl) (sq := sq) (u := u) R.accurate hn hm hnb hmb last
  obtain ⟨es, e1, e2, e3⟩ := schedule hf (a := 0) (b := n) (c := 0) (d := m / 2 + 1) (by omega) hnb (by omega) (by omega)
    (sched := order) (by simpa using ho)
  have hidx : ∀ k l, k < 2 ^ 63 → l < 2 ^ 63 → idx Dim.fx (pt Dim.fx Dim.fy k l) = k ∧ idx Dim.fy (pt Dim.fx Dim.fy k l) = l := by
    intro i j hi hj
    constructor
    · rw [idx, pt, get_cons, if_pos rfl]; exact toNat_small hi
    · rw [idx, pt, get_cons, if_neg (by decide), get_cons, if_pos rfl]; exact toNat_small hj
  obtain ⟨F', g1, g2⟩ := fold_update (f := kernel fl kx ky dt fx fy (seg2 .fx .fy 0 n 0 (m / 2 + 1)))
    (fun e => [idx Dim.fx e, idx Dim.fy e])
    (fun e z => (fl (z.1 * factor fl kx ky dt (wx (idx Dim.fx e)) (wy (idx Dim.fy e))),
      fl (z.2 * factor fl kx ky dt (wx (idx Dim.fx e)) (wy (idx Dim.fy e))))) es e1
    (by
      intro e he e' he' h
      obtain ⟨i, j, h1, h2, h3, h4, rfl⟩ := (e2 e).1 he
      obtain ⟨i', j', h1', h2', h3', h4', rfl⟩ := (e2 e').1 he'
      obtain ⟨a1, a2⟩ := hidx i j (by omega) (by omega)
      obtain ⟨b1, b2⟩ := hidx i' j' (by omega) (by omega)
      rw [a1, a2, b1, b2] at h
      simp only [List.cons.injEq, and_true] at h
      obtain ⟨rfl, rfl⟩ := h
      rfl)
    (by
      intro e he G
      obtain ⟨i, j, h1, h2, h3, h4, rfl⟩ := (e2 e).1 he
      obtain ⟨a1, a2⟩ := hidx i j (by omega) (by omega)
      rw [a1, a2, kernel, select_fst hf, Res.ok_bind, select_snd hf, Res.ok_bind, R.cx i h2, Res.ok_bind, R.cy j (by omega),
        Res.ok_bind, place_pt hf hnb (by omega) h2 h4, Res.ok_bind]) F
  obtain ⟨S, hS⟩ : ∃ S, S = mass [n, m] (fun xs => ‖((last xs : ℝ) : ℂ)‖) := ⟨_, rfl⟩
  have hS0 : 0 ≤ S := by rw [hS]; exact mass_nonneg fun _ => norm_nonneg _
  obtain ⟨X, hX⟩ : ∃ X : List Nat → ℂ, X = fun ks => (lam ks : ℂ) * dft (-1) [n, m] (fun xs => ((last xs : ℝ) : ℂ)) ks :=
    ⟨_, rfl⟩
  have hHerm : Hermitian [n, m] X := by
    intro ks hk
    rw [hX]
    simp only
    rw [hermitian_dft (Or.inr rfl) [n, m] (fun xs => (last xs : ℝ)) ks hk, R.sym ks hk, map_mul, Complex.conj_ofReal]
  obtain ⟨next, n1, n2⟩ := ifftR_backward (fl := fl) (sq := sq) (u := u) R.accurate hn hm hnb hmb F' hHerm
  have hX1 : ∀ ks, Within [n, m] ks → ‖X ks‖ ≤ S := by
    intro ks hk
    rw [hX, hS]
    simp only
    rw [norm_mul, Complex.norm_real]
    exact (mul_le_of_le_one_left (norm_nonneg _) (R.stable ks hk)).trans (norm_dft_le _ _ _ _)
  have hlt : ∀ l, l < m / 2 + 1 → l < m := fun l hl => by omega
  have hm1 : ∀ ks, Within [n, m / 2 + 1] ks → ‖toC (F' ks) - X ks‖ ≤ modeTol η δ * S := by
    intro ks hk
    obtain ⟨k, l, h1, h2, rfl⟩ := within_two.1 hk
    have hG := g2 (pt Dim.fx Dim.fy k l) ((e2 _).2 ⟨k, l, by omega, h1, by omega, h2, rfl⟩)
    obtain ⟨a1, a2⟩ := hidx k l (by omega) (by omega)
    simp only [a1, a2] at hG
    rw [hG, hX]
    have hl2 := hlt l h2
    exact mode_near hη (R.stable _ (within_two.2 ⟨k, l, h1, hl2, rfl⟩)) (R.near k l h1 hl2)
      (by rw [hS]; exact norm_dft_le _ _ _ _) (by rw [hS]; exact f2 _ hk) (scaled_near R.rounds _ _)
  have hδ : 0 ≤ δ := (abs_nonneg _).trans (R.near 0 0 hn hm)
  have hT : 0 ≤ modeTol η δ := by
    rw [modeTol]
    have h1 : (1 : ℝ) ≤ (1 + δ) * (1 + 1 / 2 ^ 53) := one_le_mul_of_one_le_of_one_le (by linarith) (by norm_num)
    have := one_le_mul_of_one_le_of_one_le h1 (show (1 : ℝ) ≤ 1 + η by linarith)
    linarith
  refine ⟨F, F', next, f1, by rw [e3, g1], n1, ?_⟩
  have hN : (0 : ℝ) < ((n * m : Nat) : ℝ) := by exact_mod_cast Nat.mul_pos hn hm
  have p1 : ∀ xs, Within [n, m] xs → ‖((next xs : ℝ) : ℂ) - filter n m lam (fun xs => ((last xs : ℝ) : ℂ)) xs‖ ≤
      (η + 2 * (1 + η) * modeTol η δ) * S := by
    intro xs hx
    have a := n2 xs hx
    have b1 : mass [n, m] (fun ks => ‖X ks‖) ≤ ((n * m : Nat) : ℝ) * S := by
      refine (mass_le hX1).trans (le_of_eq ?_)
      rw [mass_const]; simp
    have b2 : mass [n, m / 2 + 1] (fun ks => ‖toC (F' ks) - X ks‖) ≤ ((n * m : Nat) : ℝ) * (modeTol η δ * S) := by
      refine (mass_le hm1).trans ?_
      rw [mass_const]
      refine mul_le_mul_of_nonneg_right ?_ (mul_nonneg hT hS0)
      have h3 : ([n, m / 2 + 1] : List Nat).prod ≤ n * m := by
        simp only [List.prod_cons, List.prod_nil, mul_one]
        exact Nat.mul_le_mul_left _ (hlt (m / 2) (by omega))
      exact_mod_cast h3
    rw [hX] at a
    refine le_trans (le_of_eq rfl) (a.trans ?_)
    rw [← hX, one_div, inv_mul_le_iff₀ hN]
    have c1 := mul_le_mul_of_nonneg_left b1 hη
    have c2 := mul_le_mul_of_nonneg_left b2 (show 0 ≤ (1 + η) * 2 by linarith)
    linarith
  have p2 := amp_le_const (mul_nonneg (add_nonneg hη (mul_nonneg (by linarith) hT)) hS0) p1
  refine p2.trans ?_
  have p3 := mass_le_amp (n := n) (m := m) (fun xs => ((last xs : ℝ) : ℂ))
  rw [← hS] at p3
  have hq : √((n * m : Nat) : ℝ) * √((n * m : Nat) : ℝ) = ((n * m : Nat) : ℝ) := Real.mul_self_sqrt hN.le
  have p4 := mul_le_mul_of_nonneg_left p3
    (mul_nonneg (Real.sqrt_nonneg ((n * m : Nat) : ℝ)) (add_nonneg hη (mul_nonneg (show (0 : ℝ) ≤ 2 * (1 + η) by linarith) hT)))
  rw [stepTol]
  calc _ ≤ _ := le_of_eq (by ring)
    _ ≤ _ := p4
    _ = √((n * m : Nat) : ℝ) * √((n * m : Nat) : ℝ) * (η + 2 * (1 + η) * modeTol η δ) *
        amp n m (fun xs => ((last xs : ℝ) : ℂ)) := by ring
    _ = _ := by rw [hq]

theorem timeLoop_near {kx ky dt : Rat} (R : Ready fl L n m fx fy wx wy kx ky dt lam η δ) (hε : 0 ≤ stepTol n m η δ)
    {orders : Nat → List (List I64)}
    (ho : ∀ k, (orders k).Perm (Support.policy [BitVec.ofNat 64 n, BitVec.ofNat 64 (m / 2 + 1)])) (M i : Nat)
    (last : List Nat → Rat) :
    ∃ r, timeLoop fl sq L u kx ky dt fx fy (seg2 .x .y 0 n 0 m) (seg2 .fx .fy 0 n 0 (m / 2 + 1)) orders M i last = .ok r ∧
      amp n m (fun xs => ((r xs : ℝ) : ℂ) - (filter n m lam)^[M] (fun xs => ((last xs : ℝ) : ℂ)) xs) ≤
        ((1 + stepTol n m η δ) ^ M - 1) * amp n m (fun xs => ((last xs : ℝ) : ℂ)) := by
  induction M generalizing i last with
  | zero =>
    refine ⟨last, rfl, ?_⟩
    have e : vecOf n m (fun xs => ((last xs : ℝ) : ℂ) - ((last xs : ℝ) : ℂ)) = 0 := by ext q; simp [vecOf]
    rw [amp, Function.iterate_zero, id, e]
    simp
  | succ M ih =>
    obtain ⟨F, F', next, h1, h2, h3, h4⟩ := round_near (sq := sq) (u := u) R (ho i) last
    obtain ⟨r, r1, r2⟩ := ih (i + 1) next
    refine ⟨r, ?_, ?_⟩
    · rw [timeLoop, h1, Res.ok_bind, h2, Res.ok_bind, h3, Res.ok_bind, r1]
    · obtain ⟨ε, hE⟩ : ∃ ε, ε = stepTol n m η δ := ⟨_, rfl⟩
      rw [← hE] at h4 r2 hε ⊢
      have a1 := amp_le_add (n := n) (m := m) (fun xs => ((next xs : ℝ) : ℂ)) (filter n m lam (fun xs => ((last xs : ℝ) : ℂ)))
      have a2 := filter_le R.n0 R.m0 R.stable (fun xs => ((last xs : ℝ) : ℂ))
      have a3 := amp_triangle (n := n) (m := m) (fun xs => ((r xs : ℝ) : ℂ))
        ((filter n m lam)^[M] (fun xs => ((next xs : ℝ) : ℂ))) ((filter n m lam)^[M + 1] (fun xs => ((last xs : ℝ) : ℂ)))
      have a4 := iterate_contracts R.n0 R.m0 R.stable M (fun xs => ((next xs : ℝ) : ℂ)) (filter n m lam (fun xs => ((last xs : ℝ) : ℂ)))
      rw [Function.iterate_succ_apply] at a3
      have p0 : 0 ≤ (1 + ε) ^ M - 1 := by have := one_le_pow₀ (show (1 : ℝ) ≤ 1 + ε by linarith) (n := M); linarith
      have a5 : amp n m (fun xs => ((next xs : ℝ) : ℂ)) ≤ (1 + ε) * amp n m (fun xs => ((last xs : ℝ) : ℂ)) := by linarith
      have a6 := mul_le_mul_of_nonneg_left a5 p0
      rw [Function.iterate_succ_apply]
      have e : ((1 + ε) ^ (M + 1) - 1) * amp n m (fun xs => ((last xs : ℝ) : ℂ)) =
          ((1 + ε) ^ M - 1) * ((1 + ε) * amp n m (fun xs => ((last xs : ℝ) : ℂ))) + ε * amp n m (fun xs => ((last xs : ℝ) : ℂ)) := by
        ring
      rw [e]
      linarith

end loop

theorem initial_ok {fl : Rat → Rat} {n m : Nat} (hn : n < 2 ^ 63) (hm : m < 2 ^ 63) {ux uy : Uniform Dim Rat} {xs ys : Nat → Rat}
    (hX : ∀ i, i < n → Rounded.uniformCoordinate fl ux (el Dim.x i) = .ok (xs i))
    (hY : ∀ j, j < m → Rounded.uniformCoordinate fl uy (el Dim.y j) = .ok (ys j))
    (temp : Rat → Rat → Rat) (junk : List Nat → Rat) {order : List (List I64)}
    (ho : order.Perm (Support.policy [BitVec.ofNat 64 n, BitVec.ofNat 64 m])) :
    ∃ f, Support.runSchedule (Dom.support (seg2 .x .y 0 n 0 m)) (initial fl ux uy temp (seg2 .x .y 0 n 0 m)) order junk = .ok f ∧
      ∀ i j, i < n → j < m → f [i, j] = temp (xs i) (ys j) := by
  have hxy : Dim.x ≠ Dim.y := by decide
  obtain ⟨es, e1, e2, e3⟩ := schedule hxy (a := 0) (b := n) (c := 0) (d := m) (by omega) hn (by omega) hm
    (sched := order) (by simpa using ho)
  have hidx : ∀ k l, k < 2 ^ 63 → l < 2 ^ 63 → idx Dim.x (pt Dim.x Dim.y k l) = k ∧ idx Dim.y (pt Dim.x Dim.y k l) = l := by
    intro i j hi hj
    constructor
    · rw [idx, pt, get_cons, if_pos rfl]; exact toNat_small hi
    · rw [idx, pt, get_cons, if_neg (by decide), get_cons, if_pos rfl]; exact toNat_small hj
  obtain ⟨F', g1, g2⟩ := fold_update (f := initial fl ux uy temp (seg2 .x .y 0 n 0 m))
    (fun e => [idx Dim.x e, idx Dim.y e]) (fun e _ => temp (xs (idx Dim.x e)) (ys (idx Dim.y e))) es e1
    (by
      intro e he e' he' h
      obtain ⟨i, j, h1, h2, h3, h4, rfl⟩ := (e2 e).1 he
      obtain ⟨i', j', h1', h2', h3', h4', rfl⟩ := (e2 e').1 he'
      obtain ⟨a1, a2⟩ := hidx i j (by omega) (by omega)
      obtain ⟨b1, b2⟩ := hidx i' j' (by omega) (by omega)
      rw [a1, a2, b1, b2] at h
      simp only [List.cons.injEq, and_true] at h
      obtain ⟨rfl, rfl⟩ := h
      rfl)
    (by
      intro e he G
      obtain ⟨i, j, h1, h2, h3, h4, rfl⟩ := (e2 e).1 he
      obtain ⟨a1, a2⟩ := hidx i j (by omega) (by omega)
      rw [a1, a2, initial, select_fst hxy, Res.ok_bind, hX i h2, Res.ok_bind, select_snd hxy, Res.ok_bind, hY j h4,
        Res.ok_bind, place_pt hxy hn hm h2 h4, Res.ok_bind]) junk
  refine ⟨F', by rw [e3, g1], ?_⟩
  intro i j hi hj
  have hG := g2 (pt Dim.x Dim.y i j) ((e2 _).2 ⟨i, j, by omega, hi, by omega, hj, rfl⟩)
  obtain ⟨a1, a2⟩ := hidx i j (by omega) (by omega)
  simpa only [a1, a2] using hG

end DDC.RoundedSpectral
