import Verif.Spec.RoundedFourier
import Verif.Lemmas.RoundedNearReal
import Verif.Lemmas.Fourier
import Verif.Props.C49
import Verif.Props.C62
import Mathlib.Analysis.Real.Pi.Bounds

/-!
# C85 — Fourier transforms with rounding

The coefficients of the normalisation FULL, the wave numbers and the composition of `fft` and `ifft`, whatever the rounding of
the operations, for a library that is accurate up to a given tolerance.
-/

namespace DDC.Props

open DDC Tup Dom Spec One Fourier

set_option linter.unusedSectionVars false

variable {τ : Type} [DecidableEq τ] {fl sq : Rat → Rat}

/-! ## Coefficients -/

theorem piDouble_near : NearR 1 (Rounded.piDouble : ℝ) Real.pi := by
  have h1 := Real.pi_gt_d20
  have h2 := Real.pi_lt_d20
  refine NearR.of_rel ?_
  rw [abs_of_pos Real.pi_pos, Rounded.piDouble, abs_le]
  push_cast
  constructor <;> norm_num at h1 h2 ⊢ <;> linarith

theorem root_near (hfl : RoundsAll fl) (hsq : RoundsSqrt sq) :
    NearR 3 (sq (fl (2 * Rounded.piDouble)) : Rat) √(2 * Real.pi) := by
  have h0 : (0 : ℝ) < 2 * Real.pi := by have := Real.pi_pos; linarith
  have h1 : NearR 1 ((2 * Rounded.piDouble : Rat) : ℝ) (2 * Real.pi) := by
    have := (NearR.refl 2).mul piDouble_near
    rw [Nat.zero_add] at this
    push_cast
    exact this
  have h2 := h1.fl hfl
  have h3 := h2.sqrt (by norm_num) h0
  have hp : (0 : Rat) ≤ fl (2 * Rounded.piDouble) := by exact_mod_cast (h2.pos (by norm_num) h0).le
  have h4 : NearR 1 ((sq (fl (2 * Rounded.piDouble)) : Rat) : ℝ) √((fl (2 * Rounded.piDouble) : Rat) : ℝ) := by
    refine NearR.of_rel ?_
    rw [abs_of_nonneg (Real.sqrt_nonneg _), Nat.cast_one]
    have := hsq _ hp
    linarith
  exact h4.trans h3

/-- Specification: the points of `d` along `t` are resolved: with at least two points, and their coordinates are at most `R`
times the length of the domain. -/
structure FullSide (u : Uniform τ Rat) (R : Nat) (t : τ) (d : Dom τ) : Prop where
  ref : u.ref = [(t, 0)]
  step : 0 < u.step
  top : hi t d ≤ 2 ^ 53
  many : 2 ≤ len t d
  spread : |u.origin| + hi t d * u.step ≤ R * (((len t d - 1 : Nat) : Rat) * u.step)

theorem length_near (hfl : RoundsAll fl) {u : Uniform τ Rat} {t : τ} (hr : u.ref = [(t, 0)]) (hs : 0 < u.step) {x n R : Nat}
    (h : x + n ≤ 2 ^ 53) (hn : 2 ≤ n) (hR : |u.origin| + (x + n : Nat) * u.step ≤ R * (((n - 1 : Nat) : Rat) * u.step)) :
    ∃ l, Rounded.uniformRlength fl u (seg t x (x + n)) = .ok l ∧
      NearR (6 * R + 1) (l : ℝ) (((n - 1 : Nat) : ℝ) * (u.step : ℝ)) := by
  obtain ⟨o, s, r⟩ := u
  have hr' : r = el t 0 := hr
  subst hr'
  simp only at hs hR
  refine ⟨fl (flPoint fl o s (x + n - 1 : Nat) - flPoint fl o s x), ?_, ?_⟩
  · rw [Rounded.uniformRlength, Rounded.uniformRmax, Rounded.uniformRmin, back_nat t (by omega), Res.ok_bind, One.front,
      uniformCoordinate_ok hfl t o s (by omega), Res.ok_bind, uniformCoordinate_ok hfl t o s (by omega)]
    rfl
  · refine NearR.fl hfl (NearR.of_rel ?_)
    have p : ∀ k : Nat, k ≤ x + n → |flPoint fl o s k - (o + k * s)| ≤
        3 * (R * (((n - 1 : Nat) : Rat) * s)) / 2 ^ 53 := by
      intro k hk
      have e := flPoint_error hfl o s k
      rw [Int.cast_natCast] at e
      have k0 : (0 : Rat) ≤ k * s := by positivity
      have k1 : (k : Rat) * s ≤ (x + n : Nat) * s := mul_le_mul_of_nonneg_right (by exact_mod_cast hk) hs.le
      have k2 := abs_add_le o (k * s)
      rw [abs_of_nonneg k0] at k2 e
      have o0 := abs_nonneg o
      refine e.trans ?_
      gcongr
      linarith
    have h1 := p (x + n - 1) (by omega)
    have h2 := p x (by omega)
    have e : ((x + n - 1 : Nat) : Rat) = x + (n - 1 : Nat) := by exact_mod_cast (by omega : x + n - 1 = x + (n - 1))
    rw [e, add_mul] at h1
    have l0 : (0 : Rat) ≤ ((n - 1 : Nat) : Rat) * s := by positivity
    have key : |flPoint fl o s (x + n - 1 : Nat) - flPoint fl o s x - ((n - 1 : Nat) : Rat) * s| ≤
        ((6 * R : Nat) : Rat) / 2 ^ 53 * |((n - 1 : Nat) : Rat) * s| := by
      rw [abs_of_nonneg l0]
      push_cast
      generalize ((n - 1 : Nat) : Rat) * s = l at *
      rw [abs_le] at *
      constructor <;> linarith [h1.1, h1.2, h2.1, h2.2]
    show |((flPoint fl o s (x + n - 1 : Nat) - flPoint fl o s x : Rat) : ℝ) - ((n - 1 : Nat) : ℝ) * (s : ℝ)| ≤
        ((6 * R : Nat) : ℝ) / 2 ^ 53 * |((n - 1 : Nat) : ℝ) * (s : ℝ)|
    have k := (Rat.cast_le (K := ℝ)).2 key
    push_cast at k ⊢
    exact k

theorem forward_near (hfl : RoundsAll fl) (hsq : RoundsSqrt sq) {u : Uniform τ Rat} {t : τ} (hr : u.ref = [(t, 0)])
    (hs : 0 < u.step) {x n R : Nat} (h : x + n ≤ 2 ^ 53) (hn : 2 ≤ n)
    (hR : |u.origin| + (x + n : Nat) * u.step ≤ R * (((n - 1 : Nat) : Rat) * u.step)) :
    ∃ c, Rounded.fftForwardCoef fl sq u (seg t x (x + n)) = .ok c ∧
      NearR (6 * R + 9) (c : ℝ) ((u.step : ℝ) / √(2 * Real.pi)) := by
  obtain ⟨l, h1, h2⟩ := length_near hfl hr hs h hn hR
  have hp : 0 < √(2 * Real.pi) := Real.sqrt_pos.2 (by have := Real.pi_pos; linarith)
  have h3 := (h2.div (root_near hfl hsq) (by norm_num) hp)
  have hn0 : ((n - 1 : Nat) : ℝ) ≠ 0 := by exact_mod_cast (by omega : n - 1 ≠ 0)
  refine ⟨fl (fl (l / sq (fl (2 * Rounded.piDouble))) / ((n - 1 : Nat) : Rat)), ?_, ?_⟩
  · rw [Rounded.fftForwardCoef, h1, Res.ok_bind, extents_nat t (by omega), Res.ok_bind, vec,
      subInt_nat t (by omega) (by omega), Res.ok_bind]
    simp only [Vect.value, Res.ok_bind]
    have e : x + n - x - 1 = n - 1 := by omega
    rw [e, if_neg, toInt_ofNat (by omega), Int.cast_natCast, fl_nat hfl (by omega)]
    intro h2
    have := congrArg BitVec.toNat h2
    rw [BitVec.toNat_ofNat, Nat.mod_eq_of_lt (by omega)] at this
    simp at this
    omega
  · have h4 : NearR (6 * R + 1 + 2 * 3) ((l / sq (fl (2 * Rounded.piDouble)) : Rat) : ℝ)
        (((n - 1 : Nat) : ℝ) * u.step / √(2 * Real.pi)) := by push_cast; exact h3
    have h5 := (h4.fl hfl).mul (NearR.refl (1 / ((n - 1 : Nat) : ℝ)))
    have h6 : NearR (6 * R + 1 + 2 * 3 + 1) ((fl (l / sq (fl (2 * Rounded.piDouble))) / ((n - 1 : Nat) : Rat) : Rat) : ℝ)
        ((u.step : ℝ) / √(2 * Real.pi)) := by
      have e : ((n - 1 : Nat) : ℝ) * u.step / √(2 * Real.pi) * (1 / ((n - 1 : Nat) : ℝ)) = u.step / √(2 * Real.pi) := by
        field_simp
      rw [e, mul_one_div] at h5
      push_cast at h5 ⊢
      exact h5
    exact (h6.fl hfl).mono (by omega)

/-- The backward coefficient undoes the forward one, whatever the accuracy of the latter. -/
theorem backward_cancels (hfl : RoundsAll fl) {u : Uniform τ Rat} {t : τ} {x n : Nat} (h : x + n ≤ 2 ^ 53) (hn : 2 ≤ n)
    {c : Rat} (hc : Rounded.fftForwardCoef fl sq u (seg t x (x + n)) = .ok c) (hc0 : 0 < c) :
    ∃ b, Rounded.fftBackwardCoef fl sq u (seg t x (x + n)) = .ok b ∧ NearR 3 (b : ℝ) (1 / ((c : ℝ) * n)) := by
  have hn0 : (0 : ℝ) < n := by exact_mod_cast (by omega : 0 < n)
  have hcr : (0 : ℝ) < (c : ℝ) := by exact_mod_cast hc0
  have h1 : NearR 1 ((fl (c * n) : Rat) : ℝ) ((c : ℝ) * n) := by
    have : NearR 0 ((c * n : Rat) : ℝ) ((c : ℝ) * n) := by push_cast; exact NearR.refl _
    exact this.fl hfl
  have hp := h1.pos (by norm_num) (by positivity)
  have hp' : fl (c * n) ≠ 0 := by
    intro h
    rw [h] at hp
    simp at hp
  refine ⟨fl (1 / fl (c * n)), ?_, ?_⟩
  · rw [Rounded.fftBackwardCoef, hc, Res.ok_bind, extents_nat t (by omega), Res.ok_bind, vec]
    simp only [Vect.value, Res.ok_bind]
    have e : x + n - x = n := by omega
    rw [e, toInt_ofNat (by omega), Int.cast_natCast, fl_nat hfl (by omega), if_neg hp']
  · have h2 : NearR 2 ((1 / fl (c * n) : Rat) : ℝ) (1 / ((c : ℝ) * n)) := by
      have := h1.inv (by norm_num) (by positivity)
      push_cast
      exact this
    exact h2.fl hfl

theorem fold_near (hfl : RoundsAll fl) {coef : Uniform τ Rat → Dom τ → Res Rat} {u : τ → Uniform τ Rat} {d : Dom τ}
    {c : τ → Rat} {ts : List τ} (hne : ts ≠ [])
    (h : ∀ t ∈ ts, ∃ dt, Dom.select [t] d = .ok dt ∧ coef (u t) dt = .ok (c t)) :
    ∃ p, Rounded.fftFoldCoef fl coef u d ts = .ok p ∧ NearR ts.length (p : ℝ) (ts.map (fun t => (c t : ℝ))).prod := by
  induction ts with
  | nil => exact absurd rfl hne
  | cons t ts ih =>
    obtain ⟨dt, h1, h2⟩ := h t (by simp)
    cases ts with
    | nil =>
      refine ⟨c t, by rw [Rounded.fftFoldCoef, h1, Res.ok_bind, h2], ?_⟩
      simpa using (NearR.refl (c t : ℝ)).mono (Nat.zero_le 1)
    | cons t' ts =>
      obtain ⟨p, hp, hp2⟩ := ih (by simp) (fun q hq => h q (List.mem_cons_of_mem _ hq))
      refine ⟨fl (c t * p), ?_, ?_⟩
      · rw [Rounded.fftFoldCoef, h1, Res.ok_bind, h2, Res.ok_bind, hp, Res.ok_bind]
        · rfl
        · simp
      · have k := (NearR.refl (c t : ℝ)).mul hp2
        have k2 : NearR (0 + (t' :: ts).length) ((c t * p : Rat) : ℝ) (c t * ((t' :: ts).map (fun t => (c t : ℝ))).prod) := by
          push_cast
          exact k
        have := k2.fl hfl
        rw [List.map_cons, List.prod_cons]
        exact this.mono (by simp)

/-! ## Sums -/

theorem norm_wave_le (s : ℝ) (ns ks xs : List Nat) : ‖wave s ns ks xs‖ ≤ 1 := by
  induction ns generalizing ks xs with
  | nil => simp [wave]
  | cons n ns ih =>
    cases ks with
    | nil => simp [wave]
    | cons k ks =>
      cases xs with
      | nil => simp [wave]
      | cons x xs =>
        rw [wave, norm_mul, Complex.norm_exp_ofReal_mul_I, one_mul]
        exact ih ks xs

theorem mass_le {ns : List Nat} {f g : List Nat → ℝ} (h : ∀ xs, Within ns xs → f xs ≤ g xs) : mass ns f ≤ mass ns g := by
  induction ns generalizing f g with
  | nil => exact h [] List.Forall₂.nil
  | cons n ns ih =>
    exact Finset.sum_le_sum fun i hi => ih fun xs hx => h _ (List.Forall₂.cons (Finset.mem_range.1 hi) hx)

theorem mass_const (ns : List Nat) (B : ℝ) : mass ns (fun _ => B) = (ns.prod : ℝ) * B := by
  induction ns with
  | nil => simp [mass]
  | cons n ns ih =>
    simp only [mass, ih, Finset.sum_const, Finset.card_range, nsmul_eq_mul, List.prod_cons]
    push_cast
    ring

theorem mass_nonneg {ns : List Nat} {f : List Nat → ℝ} (h : ∀ xs, 0 ≤ f xs) : 0 ≤ mass ns f := by
  induction ns generalizing f with
  | nil => exact h []
  | cons n ns ih => exact Finset.sum_nonneg fun i _ => ih fun xs => h _

theorem le_mass {ns : List Nat} {f : List Nat → ℝ} (h : ∀ xs, 0 ≤ f xs) {xs : List Nat} (hx : Within ns xs) :
    f xs ≤ mass ns f := by
  induction ns generalizing f xs with
  | nil => cases hx; exact le_refl _
  | cons n ns ih =>
    cases hx with
    | cons hi hx =>
      rename_i x xs
      refine (ih (f := fun is => f (x :: is)) (fun xs => h _) hx).trans ?_
      exact Finset.single_le_sum (f := fun i => mass ns (fun is => f (i :: is)))
        (fun i _ => mass_nonneg fun xs => h _) (Finset.mem_range.2 hi)

theorem norm_boxSum_le (ns : List Nat) (f : List Nat → ℂ) : ‖boxSum ns f‖ ≤ mass ns (fun xs => ‖f xs‖) := by
  induction ns generalizing f with
  | nil => exact le_refl _
  | cons n ns ih => exact (norm_sum_le _ _).trans (Finset.sum_le_sum fun i _ => ih _)

theorem norm_dft_le (s : ℝ) (ns : List Nat) (f : List Nat → ℂ) (ks : List Nat) :
    ‖dft s ns f ks‖ ≤ mass ns (fun xs => ‖f xs‖) := by
  refine (norm_boxSum_le _ _).trans (mass_le fun xs _ => ?_)
  rw [norm_mul]
  exact mul_le_of_le_one_left (norm_nonneg _) (norm_wave_le s ns ks xs)

theorem boxSum_sub (ns : List Nat) (f g : List Nat → ℂ) :
    boxSum ns f - boxSum ns g = boxSum ns (fun xs => f xs - g xs) := by
  induction ns generalizing f g with
  | nil => rfl
  | cons n ns ih => simp only [boxSum, ← Finset.sum_sub_distrib, ih]

theorem dft_sub (s : ℝ) (ns : List Nat) (f g : List Nat → ℂ) (ks : List Nat) :
    dft s ns f ks - dft s ns g ks = dft s ns (fun xs => f xs - g xs) ks := by
  rw [dft, dft, boxSum_sub, dft]
  exact boxSum_congr fun xs _ => by ring

/-! ## Scaling -/

theorem scale_near (hfl : RoundsAll fl) {c : Rat} (hc : 0 < c) (z : Rat × Rat) :
    ‖toC (Rounded.fftScale fl c z) - (c : ℂ) * toC z‖ ≤ (c : ℝ) * ‖toC z‖ / 2 ^ 53 := by
  have hc' : (0 : ℝ) < (c : ℝ) := by exact_mod_cast hc
  have k : ∀ x : Rat, |((fl (c * x) : Rat) : ℝ) - c * x| ≤ |(c : ℝ) * x| / 2 ^ 53 := by
    intro x
    exact_mod_cast hfl.error (c * x)
  have e : toC (Rounded.fftScale fl c z) - (c : ℂ) * toC z =
      ⟨((fl (c * z.1) : Rat) : ℝ) - c * z.1, ((fl (c * z.2) : Rat) : ℝ) - c * z.2⟩ := by
    apply Complex.ext <;> simp [toC, Rounded.fftScale]
  rw [e]
  refine le_of_sq_le_sq ?_ (by positivity)
  rw [Complex.sq_norm, Complex.normSq_mk, div_pow, mul_pow, Complex.sq_norm, toC, Complex.normSq_mk]
  have sq1 : ∀ x : Rat, (((fl (c * x) : Rat) : ℝ) - c * x) * (((fl (c * x) : Rat) : ℝ) - c * x) ≤
      (c : ℝ) ^ 2 * ((x : ℝ) * x) / (2 ^ 53) ^ 2 := by
    intro x
    have h := pow_le_pow_left₀ (abs_nonneg _) (k x) 2
    rw [sq_abs, div_pow, sq_abs] at h
    calc _ = (((fl (c * x) : Rat) : ℝ) - c * x) ^ 2 := by ring
      _ ≤ _ := h
      _ = _ := by ring
  calc _ ≤ _ := add_le_add (sq1 z.1) (sq1 z.2)
    _ = _ := by ring

/-- A value of the library followed by the scaling of DDC. -/
theorem stage {η c L S : ℝ} {g o D : ℂ} (hη : 0 ≤ η) (hc : 0 < c) (hL : 0 ≤ L) (hD : ‖D‖ ≤ S)
    (ho : ‖o - L * D‖ ≤ η * (L * S)) (hg : ‖g - c * o‖ ≤ c * ‖o‖ / 2 ^ 53) :
    ‖g - ((c * L : ℝ) : ℂ) * D‖ ≤ ((1 + η) * upR 1 - 1) * (c * L * S) := by
  have e : g - ((c * L : ℝ) : ℂ) * D = (g - c * o) + c * (o - L * D) := by push_cast; ring
  have k1 : ‖o‖ ≤ (1 + η) * (L * S) := by
    have h1 := norm_sub_norm_le o (L * D)
    have h2 : ‖(L : ℂ) * D‖ ≤ L * S := by
      rw [norm_mul, Complex.norm_of_nonneg hL]
      exact mul_le_mul_of_nonneg_left hD hL
    linarith
  have k2 : c * ‖o‖ / 2 ^ 53 ≤ c * ((1 + η) * (L * S)) / 2 ^ 53 := by gcongr
  have k3 : ‖(c : ℂ) * (o - L * D)‖ ≤ c * (η * (L * S)) := by
    rw [norm_mul, Complex.norm_of_nonneg hc.le]
    exact mul_le_mul_of_nonneg_left ho hc.le
  rw [e]
  calc _ ≤ c * ((1 + η) * (L * S)) / 2 ^ 53 + c * (η * (L * S)) := (norm_add_le _ _).trans (add_le_add (hg.trans k2) k3)
    _ = _ := by rw [upR]; ring

/-- Another factor. -/
theorem change_factor {θ a b S : ℝ} {m : Nat} {g D : ℂ} (hθ : 1 ≤ θ) (hb : 0 < b) (hD : ‖D‖ ≤ S) (hn : NearR m a b)
    (hg : ‖g - a * D‖ ≤ (θ - 1) * (a * S)) : ‖g - b * D‖ ≤ (θ * upR m - 1) * (b * S) := by
  have hS : 0 ≤ S := (norm_nonneg _).trans hD
  have e : g - b * D = (g - a * D) + ((a - b : ℝ) : ℂ) * D := by push_cast; ring
  have k1 : ‖((a - b : ℝ) : ℂ) * D‖ ≤ (upR m - 1) * b * S := by
    rw [norm_mul, Complex.norm_real, Real.norm_eq_abs]
    have h := hn
    rw [NearR, abs_of_pos hb] at h
    exact mul_le_mul h hD (norm_nonneg _) ((abs_nonneg _).trans h)
  have k2 : a ≤ upR m * b := by
    have := hn.abs_le
    rw [abs_of_pos hb] at this
    exact (le_abs_self a).trans this
  have k3 := mul_le_mul_of_nonneg_left (mul_le_mul_of_nonneg_right k2 hS) (show 0 ≤ θ - 1 by linarith)
  rw [e]
  calc _ ≤ (θ - 1) * (upR m * b * S) + (upR m - 1) * b * S := (norm_add_le _ _).trans (add_le_add (hg.trans k3) k1)
    _ = _ := by ring

/-! ## Transforms -/

/-- Specification: the sampling with the same numbers, as real numbers. -/
noncomputable def realSampling (u : τ → Uniform τ Rat) (t : τ) : Uniform τ ℝ := ⟨(u t).origin, (u t).step, (u t).ref⟩

/-- Specification: `d` is a mesh without empty dimension; for the normalisation FULL, which uses the coordinates, its points are
resolved along each dimension. -/
structure RoundedMesh (u : τ → Uniform τ Rat) (R : Nat) (norm : FFT.Norm) (d : Dom τ) : Prop where
  valid : Valid d
  ne : d ≠ []
  rank : d.length ≤ 2 ^ 8
  pos : ∀ t ∈ tags d, 1 ≤ len t d
  side : norm = .full → R ≤ 2 ^ 24 ∧ ∀ t ∈ tags d, FullSide (u t) R t d

theorem prod_pos_of {α : Type} (l : List α) {f : α → ℝ} (h : ∀ t ∈ l, 0 < f t) : 0 < (l.map f).prod := by
  refine List.prod_pos ?_
  intro x hx
  obtain ⟨t, ht, rfl⟩ := List.mem_map.1 hx
  exact h t ht

theorem prod_mul_map {α : Type} (l : List α) (f g : α → ℝ) :
    (l.map f).prod * (l.map g).prod = (l.map (fun t => f t * g t)).prod := by
  induction l with
  | nil => simp
  | cons t l ih =>
    simp only [List.map_cons, List.prod_cons, ← ih]
    ring

theorem card_prod (d : Dom τ) : (card d : ℝ) = ((tags d).map (fun t => (len t d : ℝ))).prod := by
  rw [← prod_sizes, sizes]
  push_cast
  rw [List.map_map]
  rfl

/-- The factors of both directions, as computed. -/
theorem finish_near (hfl : RoundsAll fl) (hsq : RoundsSqrt sq) {u : τ → Uniform τ Rat} {R : Nat} {norm : FFT.Norm} {d : Dom τ}
    (e : Dom τ) (h : RoundedMesh u R norm d) : ∃ cf cb : ℝ, 0 < cf ∧ 0 < cb ∧
      (∀ out, ∃ g, Rounded.fftFinish fl sq (Rounded.fftScale fl) u .forward norm d e out = .ok g ∧
        ∀ ks, ‖toC (g ks) - cf * toC (out ks)‖ ≤ cf * ‖toC (out ks)‖ / 2 ^ 53) ∧
      (∀ out, ∃ g, Rounded.fftFinish fl sq (Rounded.fftScale fl) u .backward norm e d out = .ok g ∧
        ∀ ks, ‖toC (g ks) - cb * toC (out ks)‖ ≤ cb * ‖toC (out ks)‖ / 2 ^ 53) ∧
      NearR ((6 * R + 10) * d.length) (cf * libForward (sizes d) (FFT.toKokkos norm)) (forwardFactor (realSampling u) d norm) ∧
      NearR ((12 * R + 22) * d.length) (cb * libBackward (sizes d) (FFT.toKokkos norm))
        (backwardFactor (realSampling u) d norm) ∧
      NearR (5 * d.length) (cf * libForward (sizes d) (FFT.toKokkos norm) * (cb * libBackward (sizes d) (FFT.toKokkos norm)) *
        (card d : ℝ)) (if norm = .off then (card d : ℝ) else 1) := by
  have htl : (tags d).length = d.length := by simp [tags]
  have hcard : (0 : ℝ) < (card d : ℝ) := by
    rw [card_prod]
    exact prod_pos_of _ fun t ht => by exact_mod_cast h.pos t ht
  by_cases hf : norm = .full
  · subst hf
    obtain ⟨hR, hs⟩ := h.side rfl
    have hp : 0 < √(2 * Real.pi) := Real.sqrt_pos.2 (by have := Real.pi_pos; linarith)
    have hsqr : √(2 * Real.pi) * √(2 * Real.pi) = 2 * Real.pi :=
      Real.mul_self_sqrt (by have := Real.pi_pos; linarith)
    have hseg : ∀ t ∈ tags d, Dom.select [t] d = .ok (seg t (lo t d) (lo t d + len t d)) ∧ lo t d + len t d = hi t d := by
      intro t ht
      have h1 := (h.valid.2 t ht).1
      have h2 : lo t d + len t d = hi t d := by rw [Spec.len]; omega
      exact ⟨by rw [select_seg h.valid ht, h2], h2⟩
    have step : ∀ t ∈ tags d, 0 < ((u t).step : ℝ) := fun t ht => by exact_mod_cast (hs t ht).step
    have hc : ∀ t, ∃ c : Rat, t ∈ tags d →
        Rounded.fftForwardCoef fl sq (u t) (seg t (lo t d) (lo t d + len t d)) = .ok c ∧
        NearR (6 * R + 9) (c : ℝ) (((u t).step : ℝ) / √(2 * Real.pi)) := by
      intro t
      by_cases ht : t ∈ tags d
      · have k := hs t ht
        obtain ⟨c, h1, h2⟩ := forward_near hfl hsq k.ref k.step (x := lo t d) (n := len t d) (R := R)
          (by rw [(hseg t ht).2]; exact k.top) k.many (by rw [(hseg t ht).2]; exact k.spread)
        exact ⟨c, fun _ => ⟨h1, h2⟩⟩
      · exact ⟨0, fun h => absurd h ht⟩
    choose c hc using hc
    have cpos : ∀ t ∈ tags d, 0 < (c t : ℝ) := fun t ht =>
      (hc t ht).2.pos (by omega) (div_pos (step t ht) hp)
    have hb : ∀ t, ∃ b : Rat, t ∈ tags d →
        Rounded.fftBackwardCoef fl sq (u t) (seg t (lo t d) (lo t d + len t d)) = .ok b ∧
        NearR 3 (b : ℝ) (1 / ((c t : ℝ) * len t d)) := by
      intro t
      by_cases ht : t ∈ tags d
      · have k := hs t ht
        obtain ⟨b, h1, h2⟩ := backward_cancels hfl (by rw [(hseg t ht).2]; exact k.top) k.many (hc t ht).1
          (by exact_mod_cast cpos t ht)
        exact ⟨b, fun _ => ⟨h1, h2⟩⟩
      · exact ⟨0, fun h => absurd h ht⟩
    choose b hb using hb
    have lpos : ∀ t ∈ tags d, (0 : ℝ) < (len t d : ℝ) := fun t ht => by exact_mod_cast h.pos t ht
    have bpos : ∀ t ∈ tags d, 0 < (b t : ℝ) := fun t ht =>
      (hb t ht).2.pos (by norm_num) (by have := cpos t ht; have := lpos t ht; positivity)
    obtain ⟨pf, hpf, npf⟩ := fold_near hfl (coef := Rounded.fftForwardCoef fl sq) (u := u) (d := d) (c := c) (tags_ne h.ne)
      (fun t ht => ⟨_, (hseg t ht).1, (hc t ht).1⟩)
    obtain ⟨pb, hpb, npb⟩ := fold_near hfl (coef := Rounded.fftBackwardCoef fl sq) (u := u) (d := d) (c := b) (tags_ne h.ne)
      (fun t ht => ⟨_, (hseg t ht).1, (hb t ht).1⟩)
    have hrank := h.rank
    rw [htl] at npf npb
    have ppf := npf.pos (by omega) (prod_pos_of _ cpos)
    have ppb := npb.pos (by omega) (prod_pos_of _ bpos)
    refine ⟨pf, pb, ppf, ppb, ?_, ?_, ?_, ?_, ?_⟩
    · intro out
      refine ⟨fun ks => Rounded.fftScale fl pf (out ks), ?_, fun ks => ?_⟩
      · rw [Rounded.fftFinish, if_pos rfl, if_pos rfl, hpf]
        rfl
      · have := scale_near hfl (show 0 < pf by exact_mod_cast ppf) (out ks)
        rw [Complex.ofReal_ratCast]
        exact this
    · intro out
      refine ⟨fun ks => Rounded.fftScale fl pb (out ks), ?_, fun ks => ?_⟩
      · rw [Rounded.fftFinish, if_pos rfl, if_neg (by decide), hpb]
        rfl
      · have := scale_near hfl (show 0 < pb by exact_mod_cast ppb) (out ks)
        rw [Complex.ofReal_ratCast]
        exact this
    · simp only [FFT.toKokkos, libForward, mul_one, forwardFactor, realSampling]
      have := NearR.prod (tags d) fun t ht => (hc t ht).2
      rw [htl] at this
      exact (npf.trans this).mono (le_of_eq (by ring))
    · simp only [FFT.toKokkos, libBackward, mul_one, backwardFactor, realSampling]
      have := NearR.prod (m := 12 * R + 21) (tags d) (a := fun t => (b t : ℝ))
        (b := fun t => 2 * Real.pi / (len t d * ((u t).step : ℝ)) / √(2 * Real.pi)) (by
          intro t ht
          have k1 := ((hc t ht).2.mul (NearR.refl (len t d : ℝ)))
          have k2 := k1.inv (by omega) (mul_pos (div_pos (step t ht) hp) (lpos t ht))
          have e : 1 / (((u t).step : ℝ) / √(2 * Real.pi) * len t d) =
              2 * Real.pi / (len t d * ((u t).step : ℝ)) / √(2 * Real.pi) := by
            have h1 := (step t ht).ne'
            have h2 := (lpos t ht).ne'
            have h3 := hp.ne'
            rw [div_eq_div_iff (by positivity) (by positivity), div_mul_eq_mul_div, div_mul_eq_mul_div]
            field_simp
            rw [pow_two, hsqr]
          rw [e] at k2
          exact ((hb t ht).2.trans k2).mono (by omega))
      rw [htl] at this
      exact (npb.trans this).mono (le_of_eq (by ring))
    · simp only [FFT.toKokkos, libForward, libBackward, mul_one]
      rw [if_neg (by decide), card_prod]
      have k1 := (npf.mul npb).mul (NearR.refl ((tags d).map (fun t => (len t d : ℝ))).prod)
      rw [prod_mul_map, prod_mul_map] at k1
      have k2 := NearR.prod (m := 3) (tags d) (a := fun t => (c t : ℝ) * b t * len t d) (b := fun _ => 1) (by
          intro t ht
          have k := ((NearR.refl (c t : ℝ)).mul (hb t ht).2).mul (NearR.refl (len t d : ℝ))
          have h1 := (cpos t ht).ne'
          have h2 := (lpos t ht).ne'
          have e : (c t : ℝ) * (1 / (c t * len t d)) * len t d = 1 := by field_simp
          rw [e] at k
          exact k.mono (by omega))
      rw [htl] at k2
      have e1 : ((tags d).map (fun _ => (1 : ℝ))).prod = 1 := by simp
      rw [e1] at k2
      exact (k1.trans k2).mono (by omega)
  · have hfin : ∀ dir a b out, Rounded.fftFinish fl sq (Rounded.fftScale fl) u dir norm a b out = .ok out := by
      intro dir a b out
      rw [Rounded.fftFinish, if_neg hf]
      rfl
    have triv : ∀ z : ℂ, ‖z - ((1 : ℝ) : ℂ) * z‖ ≤ 1 * ‖z‖ / 2 ^ 53 := by
      intro z
      rw [Complex.ofReal_one, one_mul, sub_self, norm_zero]
      positivity
    refine ⟨1, 1, one_pos, one_pos, fun out => ⟨out, hfin _ _ _ _, fun ks => triv _⟩,
      fun out => ⟨out, hfin _ _ _ _, fun ks => triv _⟩, ?_, ?_, ?_⟩
    · rw [one_mul]
      have : libForward (sizes d) (FFT.toKokkos norm) = forwardFactor (realSampling u) d norm := by
        cases norm <;> simp_all [FFT.toKokkos, libForward, forwardFactor, prod_sizes]
      rw [this]
      exact (NearR.refl _).mono (Nat.zero_le _)
    · rw [one_mul]
      have : libBackward (sizes d) (FFT.toKokkos norm) = backwardFactor (realSampling u) d norm := by
        cases norm <;> simp_all [FFT.toKokkos, libBackward, backwardFactor, prod_sizes]
      rw [this]
      exact (NearR.refl _).mono (Nat.zero_le _)
    · have hsq := Real.mul_self_sqrt hcard.le
      have hs0 := (Real.sqrt_pos.2 hcard).ne'
      have : 1 * libForward (sizes d) (FFT.toKokkos norm) * (1 * libBackward (sizes d) (FFT.toKokkos norm)) * (card d : ℝ) =
          if norm = .off then (card d : ℝ) else 1 := by
        cases norm with
        | off => simp [FFT.toKokkos, libForward, libBackward]
        | full => exact absurd rfl hf
        | forward => simp [FFT.toKokkos, libForward, libBackward, prod_sizes, hcard.ne']
        | backward => simp [FFT.toKokkos, libForward, libBackward, prod_sizes, hcard.ne']
        | ortho =>
          simp only [FFT.toKokkos, libForward, libBackward, prod_sizes, one_mul]
          rw [if_neg (by decide)]
          field_simp
          rw [pow_two, hsq]
      rw [this]
      exact (NearR.refl _).mono (Nat.zero_le _)

theorem factor_pos {u : τ → Uniform τ Rat} {R : Nat} {norm : FFT.Norm} {d : Dom τ} (h : RoundedMesh u R norm d) :
    0 < forwardFactor (realSampling u) d norm ∧ 0 < backwardFactor (realSampling u) d norm ∧
      0 ≤ libForward (sizes d) (FFT.toKokkos norm) ∧ 0 ≤ libBackward (sizes d) (FFT.toKokkos norm) ∧ (0 : ℝ) < (card d : ℝ) := by
  have lpos : ∀ t ∈ tags d, (0 : ℝ) < (len t d : ℝ) := fun t ht => by exact_mod_cast h.pos t ht
  have hcard : (0 : ℝ) < (card d : ℝ) := by
    rw [card_prod]
    exact prod_pos_of _ lpos
  have hp : 0 < √(2 * Real.pi) := Real.sqrt_pos.2 (by have := Real.pi_pos; linarith)
  have hsq := Real.sqrt_pos.2 hcard
  refine ⟨?_, ?_, ?_, ?_, hcard⟩
  · cases norm with
    | full =>
      refine prod_pos_of _ fun t ht => ?_
      have : (0 : ℝ) < ((u t).step : ℝ) := by exact_mod_cast ((h.side rfl).2 t ht).step
      exact div_pos this hp
    | _ => simp only [forwardFactor]; positivity
  · cases norm with
    | full =>
      refine prod_pos_of _ fun t ht => ?_
      have : (0 : ℝ) < ((u t).step : ℝ) := by exact_mod_cast ((h.side rfl).2 t ht).step
      have h2 := lpos t ht
      have := Real.pi_pos
      simp only [realSampling]
      positivity
    | _ => simp only [backwardFactor]; positivity
  · cases norm <;> simp only [FFT.toKokkos, libForward] <;> positivity
  · cases norm <;> simp only [FFT.toKokkos, libBackward] <;> positivity

theorem rounded_sizes_pos {u : τ → Uniform τ Rat} {R : Nat} {norm : FFT.Norm} {d : Dom τ} (h : RoundedMesh u R norm d) :
    ∀ n ∈ sizes d, 0 < n := by
  intro n hn
  obtain ⟨t, ht, rfl⟩ := List.mem_map.1 hn
  exact h.pos t ht

theorem one_le_theta {η : ℝ} (hη : 0 ≤ η) (m : Nat) : 1 ≤ (1 + η) * upR m :=
  one_le_mul_of_one_le_of_one_le (by linarith) (one_le_upR m)

variable {η : ℝ}

/-- `fft` on complex data, in both directions, with the factors as computed. -/
theorem transforms_near (hfl : RoundsAll fl) (hsq : RoundsSqrt sq) (F : Rounded.FFTLibrary) (u : τ → Uniform τ Rat) {R : Nat}
    (dx dk : Dom τ) (norm : FFT.Norm) (hη : 0 ≤ η) (hF : FFTLibrary.Accurate F dx.length η) (hx : RoundedMesh u R norm dx)
    (hk : Valid dk) (hs : sizes dk = sizes dx) : ∃ af ab : ℝ, 0 ≤ af ∧ 0 ≤ ab ∧
      (∀ f, ∃ g, Rounded.fftC fl sq F u dk dx norm f = .ok g ∧ ∀ ks, Within (sizes dx) ks →
        ‖toC (g ks) - af * dft (-1) (sizes dx) (fun xs => toC (f xs)) ks‖ ≤
          ((1 + η) * upR 1 - 1) * (af * mass (sizes dx) (fun xs => ‖toC (f xs)‖))) ∧
      (∀ g, ∃ f, Rounded.ifftC fl sq F u dx dk norm g = .ok f ∧ ∀ xs, Within (sizes dx) xs →
        ‖toC (f xs) - ab * dft 1 (sizes dx) (fun ks => toC (g ks)) xs‖ ≤
          ((1 + η) * upR 1 - 1) * (ab * mass (sizes dx) (fun ks => ‖toC (g ks)‖))) ∧
      NearR ((6 * R + 10) * dx.length) af (forwardFactor (realSampling u) dx norm) ∧
      NearR ((12 * R + 22) * dx.length) ab (backwardFactor (realSampling u) dx norm) ∧
      NearR (5 * dx.length) (af * ab * (card dx : ℝ)) (if norm = .off then (card dx : ℝ) else 1) := by
  have hl : dx.length = dk.length := by rw [← sizes_length, ← sizes_length, hs]
  have hne : dk ≠ [] := by
    intro h
    rw [h] at hl
    exact hx.ne (List.length_eq_zero_iff.1 hl)
  obtain ⟨cf, cb, pf, pb, h1, h2, h3, h4, h5⟩ := finish_near hfl hsq dk hx
  obtain ⟨-, -, L1, L2, -⟩ := factor_pos hx
  refine ⟨_, _, mul_nonneg pf.le L1, mul_nonneg pb.le L2, ?_, ?_, h3, h4, h5⟩
  · intro f
    obtain ⟨o, ho, ho2⟩ := hF.fftn (FFT.toKokkos norm) (sizes dx) f (sizes_length dx) (rounded_sizes_pos hx)
    obtain ⟨g, hg, hg2⟩ := h1 o
    refine ⟨g, ?_, fun ks hks => stage hη pf L1 (norm_dft_le _ _ _ _) (ho2 ks hks) (hg2 ks)⟩
    rw [Rounded.fftC, Rounded.fftImplCC, ranks_ok hl hx.ne, Res.ok_bind, shape_eq hx.valid, Res.ok_bind, shape_eq hk,
      Res.ok_bind, if_pos rfl, axes_eq hx.valid.1, hs, show (tags dx).length = dx.length by simp [tags], ho, Res.ok_bind]
    exact hg
  · intro g
    obtain ⟨o, ho, ho2⟩ := hF.ifftn (FFT.toKokkos norm) (sizes dx) g (sizes_length dx) (rounded_sizes_pos hx)
    obtain ⟨f, hf, hf2⟩ := h2 o
    refine ⟨f, ?_, fun xs hxs => stage hη pb L2 (norm_dft_le _ _ _ _) (ho2 xs hxs) (hf2 xs)⟩
    rw [Rounded.ifftC, Rounded.fftImplCC, ranks_ok hl.symm hne, Res.ok_bind, shape_eq hk, Res.ok_bind, shape_eq hx.valid,
      Res.ok_bind, if_neg (by decide), axes_eq hk.1, hs, show (tags dk).length = dx.length by rw [hl]; simp [tags], ho,
      Res.ok_bind]
    exact hf

/-- `fft` on complex data, whatever the rounding: the discrete Fourier transform times the documented factor, up to the
tolerance of the library and, for the normalisation FULL, some roundings. -/
theorem C85_fft (hfl : RoundsAll fl) (hsq : RoundsSqrt sq) (F : Rounded.FFTLibrary) (u : τ → Uniform τ Rat) {R : Nat}
    (dx dk : Dom τ) (norm : FFT.Norm) (hη : 0 ≤ η) (hF : FFTLibrary.Accurate F dx.length η) (hx : RoundedMesh u R norm dx)
    (hk : Valid dk) (hs : sizes dk = sizes dx) (f : List Nat → Rat × Rat) :
    ∃ g, Rounded.fftC fl sq F u dk dx norm f = .ok g ∧ ∀ ks, Within (sizes dx) ks →
      ‖toC (g ks) - forwardFactor (realSampling u) dx norm * dft (-1) (sizes dx) (fun xs => toC (f xs)) ks‖ ≤
        ((1 + η) * (1 + 1 / 2 ^ 53) ^ ((6 * R + 10) * dx.length + 1) - 1) *
          (forwardFactor (realSampling u) dx norm * mass (sizes dx) (fun xs => ‖toC (f xs)‖)) := by
  obtain ⟨af, ab, -, -, h1, -, h3, -⟩ := transforms_near hfl hsq F u dx dk norm hη hF hx hk hs
  obtain ⟨g, hg, hg2⟩ := h1 f
  refine ⟨g, hg, fun ks hks => ?_⟩
  have := change_factor (one_le_theta hη 1) (factor_pos hx).1 (norm_dft_le _ _ _ _) h3 (hg2 ks hks)
  change _ ≤ ((1 + η) * upR _ - 1) * _
  rw [add_comm _ 1, upR_add, ← mul_assoc (1 + η)]
  exact this

/-- `ifft` on complex data, whatever the rounding. -/
theorem C85_ifft (hfl : RoundsAll fl) (hsq : RoundsSqrt sq) (F : Rounded.FFTLibrary) (u : τ → Uniform τ Rat) {R : Nat}
    (dx dk : Dom τ) (norm : FFT.Norm) (hη : 0 ≤ η) (hF : FFTLibrary.Accurate F dx.length η) (hx : RoundedMesh u R norm dx)
    (hk : Valid dk) (hs : sizes dk = sizes dx) (g : List Nat → Rat × Rat) :
    ∃ f, Rounded.ifftC fl sq F u dx dk norm g = .ok f ∧ ∀ xs, Within (sizes dx) xs →
      ‖toC (f xs) - backwardFactor (realSampling u) dx norm * dft 1 (sizes dx) (fun ks => toC (g ks)) xs‖ ≤
        ((1 + η) * (1 + 1 / 2 ^ 53) ^ ((12 * R + 22) * dx.length + 1) - 1) *
          (backwardFactor (realSampling u) dx norm * mass (sizes dx) (fun ks => ‖toC (g ks)‖)) := by
  obtain ⟨af, ab, -, -, -, h2, -, h4, -⟩ := transforms_near hfl hsq F u dx dk norm hη hF hx hk hs
  obtain ⟨f, hf, hf2⟩ := h2 g
  refine ⟨f, hf, fun xs hxs => ?_⟩
  have := change_factor (one_le_theta hη 1) (factor_pos hx).2.1 (norm_dft_le _ _ _ _) h4 (hf2 xs hxs)
  change _ ≤ ((1 + η) * upR _ - 1) * _
  rw [add_comm _ 1, upR_add, ← mul_assoc (1 + η)]
  exact this

/-- `fft` on real data, whatever the rounding. -/
theorem C85_rfft (hfl : RoundsAll fl) (hsq : RoundsSqrt sq) (F : Rounded.FFTLibrary) (u : τ → Uniform τ Rat) {R : Nat}
    (dx dk : Dom τ) (norm : FFT.Norm) (hη : 0 ≤ η) (hF : FFTLibrary.Accurate F dx.length η) (hx : RoundedMesh u R norm dx)
    (hk : Valid dk) (hs : sizes dk = halfShape (sizes dx)) (hl : dx.length = dk.length) (f : List Nat → Rat) :
    ∃ g, Rounded.fftR fl sq F u dk dx norm f = .ok g ∧ ∀ ks, Within (halfShape (sizes dx)) ks →
      ‖toC (g ks) - forwardFactor (realSampling u) dx norm * dft (-1) (sizes dx) (fun xs => ((f xs : ℝ) : ℂ)) ks‖ ≤
        ((1 + η) * (1 + 1 / 2 ^ 53) ^ ((6 * R + 10) * dx.length + 1) - 1) *
          (forwardFactor (realSampling u) dx norm * mass (sizes dx) (fun xs => |(f xs : ℝ)|)) := by
  have e : ∀ xs, toC (f xs, 0) = ((f xs : ℝ) : ℂ) := fun xs => by apply Complex.ext <;> simp [toC]
  obtain ⟨cf, cb, pf, pb, h1, -, h3, -⟩ := finish_near hfl hsq dk hx
  obtain ⟨P, -, L1, -, -⟩ := factor_pos hx
  obtain ⟨o, ho, ho2⟩ := hF.rfftn (FFT.toKokkos norm) (sizes dx) f (sizes_length dx) (rounded_sizes_pos hx)
  obtain ⟨g, hg, hg2⟩ := h1 o
  simp only [e] at ho2
  refine ⟨g, ?_, fun ks hks => ?_⟩
  · rw [Rounded.fftR, Rounded.fftImplRC, ranks_ok hl hx.ne, Res.ok_bind, shape_eq hx.valid, Res.ok_bind, shape_eq hk,
      Res.ok_bind, show decide (FFT.Dir.forward = FFT.Dir.forward) = true from rfl, Res.guardAbort_true, Res.ok_bind,
      axes_eq hx.valid.1, hs, show (tags dx).length = dx.length by simp [tags], ho, Res.ok_bind]
    exact hg
  · have k := change_factor (one_le_theta hη 1) P (norm_dft_le _ _ _ _) h3
      (stage hη pf L1 (norm_dft_le _ _ _ _) (ho2 ks hks) (hg2 ks))
    change _ ≤ ((1 + η) * upR _ - 1) * _
    rw [add_comm _ 1, upR_add, ← mul_assoc (1 + η)]
    simp only [Complex.norm_real, Real.norm_eq_abs] at k
    exact k

/-- `ifft` after `fft`, whatever the rounding and however inaccurate the coordinates of the mesh: the data (times the number of
points without normalisation) up to twice the tolerance of the library and some roundings, five per dimension. -/
theorem C85_inverse (hfl : RoundsAll fl) (hsq : RoundsSqrt sq) (F : Rounded.FFTLibrary) (u : τ → Uniform τ Rat) {R : Nat}
    (dx dk : Dom τ) (norm : FFT.Norm) (hη : 0 ≤ η) (hF : FFTLibrary.Accurate F dx.length η) (hx : RoundedMesh u R norm dx)
    (hk : Valid dk) (hs : sizes dk = sizes dx) (f : List Nat → Rat × Rat) :
    ∃ r, (do let g ← Rounded.fftC fl sq F u dk dx norm f; Rounded.ifftC fl sq F u dx dk norm g) = .ok r ∧
      ∀ xs, Within (sizes dx) xs →
        ‖toC (r xs) - (if norm = .off then (card dx : ℂ) else 1) * toC (f xs)‖ ≤
          ((1 + η) ^ 2 * (1 + 1 / 2 ^ 53) ^ (5 * dx.length + 2) - 1) *
            ((if norm = .off then (card dx : ℝ) else 1) * mass (sizes dx) (fun xs => ‖toC (f xs)‖)) := by
  obtain ⟨af, ab, pf, pb, h1, h2, -, -, h5⟩ := transforms_near hfl hsq F u dx dk norm hη hF hx hk hs
  obtain ⟨g, hg, hg2⟩ := h1 f
  obtain ⟨r, hr, hr2⟩ := h2 g
  refine ⟨r, by rw [hg, Res.ok_bind, hr], fun xs hxs => ?_⟩
  have hcard := (factor_pos hx).2.2.2.2
  set S := mass (sizes dx) (fun xs => ‖toC (f xs)‖) with hS
  set θ := (1 + η) * upR 1 with hθ
  have θ1 : 1 ≤ θ := one_le_theta hη 1
  have S0 : 0 ≤ S := mass_nonneg fun _ => norm_nonneg _
  have hn : ((sizes dx).prod : ℝ) = card dx := by rw [prod_sizes]
  -- the modes
  have m1 : ∀ ks, Within (sizes dx) ks → ‖toC (g ks)‖ ≤ θ * (af * S) := by
    intro ks hks
    have a := hg2 ks hks
    have b := norm_sub_norm_le (toC (g ks)) (af * dft (-1) (sizes dx) (fun xs => toC (f xs)) ks)
    have c : ‖(af : ℂ) * dft (-1) (sizes dx) (fun xs => toC (f xs)) ks‖ ≤ af * S := by
      rw [norm_mul, Complex.norm_of_nonneg pf]
      exact mul_le_mul_of_nonneg_left (norm_dft_le _ _ _ _) pf
    linarith
  have m2 : mass (sizes dx) (fun ks => ‖toC (g ks)‖) ≤ card dx * (θ * (af * S)) := by
    rw [← hn, ← mass_const]
    exact mass_le m1
  -- back
  have e := dft_dft (s := -1) (Or.inr rfl) (sizes dx) (fun xs => toC (f xs)) hxs
  rw [_root_.neg_neg, prod_sizes] at e
  have m3 : ‖dft 1 (sizes dx) (fun ks => toC (g ks)) xs - af * ((card dx : ℂ) * toC (f xs))‖ ≤
      card dx * ((θ - 1) * (af * S)) := by
    rw [← e, ← dft_mul, dft_sub, ← hn, ← mass_const]
    exact (norm_dft_le _ _ _ _).trans (mass_le hg2)
  have m4 : ‖toC (r xs) - ((af * ab * card dx : ℝ) : ℂ) * toC (f xs)‖ ≤ (θ * θ - 1) * (af * ab * card dx * S) := by
    have e2 : toC (r xs) - ((af * ab * card dx : ℝ) : ℂ) * toC (f xs) =
        (toC (r xs) - ab * dft 1 (sizes dx) (fun ks => toC (g ks)) xs) +
          ab * (dft 1 (sizes dx) (fun ks => toC (g ks)) xs - af * ((card dx : ℂ) * toC (f xs))) := by
      push_cast
      ring
    have k1 := hr2 xs hxs
    have k2 := mul_le_mul_of_nonneg_left (mul_le_mul_of_nonneg_left m2 pb) (show 0 ≤ θ - 1 by linarith)
    have k3 : ‖(ab : ℂ) * (dft 1 (sizes dx) (fun ks => toC (g ks)) xs - af * ((card dx : ℂ) * toC (f xs)))‖ ≤
        ab * (card dx * ((θ - 1) * (af * S))) := by
      rw [norm_mul, Complex.norm_of_nonneg pb]
      exact mul_le_mul_of_nonneg_left m3 pb
    rw [e2]
    calc _ ≤ (θ - 1) * (ab * (card dx * (θ * (af * S)))) + ab * (card dx * ((θ - 1) * (af * S))) :=
          (norm_add_le _ _).trans (add_le_add (k1.trans k2) k3)
      _ = _ := by ring
  have hκ : 0 < (if norm = .off then (card dx : ℝ) else 1) := by split_ifs <;> [exact hcard; exact one_pos]
  have hD : ‖toC (f xs)‖ ≤ S := le_mass (f := fun xs => ‖toC (f xs)‖) (fun _ => norm_nonneg _) hxs
  have fin := change_factor (one_le_mul_of_one_le_of_one_le θ1 θ1) hκ hD h5 m4
  have e3 : θ * θ * upR (5 * dx.length) = (1 + η) ^ 2 * upR (5 * dx.length + 2) := by
    rw [upR_add, hθ, show upR 2 = upR 1 * upR 1 from upR_add 1 1]
    ring
  rw [e3] at fin
  have e4 : (((if norm = .off then (card dx : ℝ) else 1 : ℝ)) : ℂ) = if norm = .off then (card dx : ℂ) else 1 := by
    split_ifs <;> simp
  rw [e4] at fin
  exact fin

/-! ## Transforms to real data -/

theorem finish_real (hfl : RoundsAll fl) {u : τ → Uniform τ Rat} {dir : FFT.Dir} {norm : FFT.Norm} {a b : Dom τ}
    {out : List Nat → Rat} {g : List Nat → Rat × Rat}
    (h : Rounded.fftFinish fl sq (Rounded.fftScale fl) u dir norm a b (fun ks => (out ks, 0)) = .ok g) :
    ∃ r, Rounded.fftFinish fl sq (Rounded.fftScaleR fl) u dir norm a b out = .ok r ∧ ∀ ks, g ks = (r ks, 0) := by
  have h0 : fl 0 = 0 := by simpa using hfl.exact 0 (by norm_num)
  by_cases hf : norm = .full
  · rw [Rounded.fftFinish, if_pos hf] at h
    by_cases hd : dir = .forward
    · simp only [if_pos hd] at h
      obtain ⟨c, hc, h⟩ := Res.bind_eq_ok.1 h
      refine ⟨fun ks => Rounded.fftScaleR fl c (out ks), ?_, fun ks => ?_⟩
      · rw [Rounded.fftFinish, if_pos hf, if_pos hd, hc]
        rfl
      · rw [← Res.ok.inj h]
        simp [Rounded.fftScale, Rounded.fftScaleR, h0]
    · simp only [if_neg hd] at h
      obtain ⟨c, hc, h⟩ := Res.bind_eq_ok.1 h
      refine ⟨fun ks => Rounded.fftScaleR fl c (out ks), ?_, fun ks => ?_⟩
      · rw [Rounded.fftFinish, if_pos hf, if_neg hd, hc]
        rfl
      · rw [← Res.ok.inj h]
        simp [Rounded.fftScale, Rounded.fftScaleR, h0]
  · rw [Rounded.fftFinish, if_neg hf] at h
    refine ⟨out, by rw [Rounded.fftFinish, if_neg hf]; rfl, fun ks => ?_⟩
    rw [← Res.ok.inj h]

theorem stage_real {c L A B : ℝ} {g o D : ℂ} (hc : 0 < c) (hL : 0 ≤ L) (hD : ‖D‖ ≤ A)
    (ho : ‖o - L * D‖ ≤ L * (η * A + (1 + η) * B)) (hg : ‖g - c * o‖ ≤ c * ‖o‖ / 2 ^ 53) :
    ‖g - ((c * L : ℝ) : ℂ) * D‖ ≤ c * L * (((1 + η) * upR 1 - 1) * A + (1 + η) * upR 1 * B) := by
  have e : g - ((c * L : ℝ) : ℂ) * D = (g - c * o) + c * (o - L * D) := by push_cast; ring
  have k1 : ‖o‖ ≤ L * ((1 + η) * (A + B)) := by
    have h1 := norm_sub_norm_le o (L * D)
    have h2 : ‖(L : ℂ) * D‖ ≤ L * A := by
      rw [norm_mul, Complex.norm_of_nonneg hL]
      exact mul_le_mul_of_nonneg_left hD hL
    linarith
  have k2 : c * ‖o‖ / 2 ^ 53 ≤ c * (L * ((1 + η) * (A + B))) / 2 ^ 53 := by gcongr
  have k3 : ‖(c : ℂ) * (o - L * D)‖ ≤ c * (L * (η * A + (1 + η) * B)) := by
    rw [norm_mul, Complex.norm_of_nonneg hc.le]
    exact mul_le_mul_of_nonneg_left ho hc.le
  rw [e]
  calc _ ≤ c * (L * ((1 + η) * (A + B))) / 2 ^ 53 + c * (L * (η * A + (1 + η) * B)) :=
        (norm_add_le _ _).trans (add_le_add (hg.trans k2) k3)
    _ = _ := by rw [upR]; ring

theorem change_real {θ a b A B : ℝ} {m : Nat} {g D : ℂ} (hθ : 1 ≤ θ) (hb : 0 < b) (hD : ‖D‖ ≤ A) (hB : 0 ≤ B)
    (hn : NearR m a b) (hg : ‖g - a * D‖ ≤ a * ((θ - 1) * A + θ * B)) :
    ‖g - b * D‖ ≤ b * ((θ * upR m - 1) * A + θ * upR m * B) := by
  have hA : 0 ≤ A := (norm_nonneg _).trans hD
  have e : g - b * D = (g - a * D) + ((a - b : ℝ) : ℂ) * D := by push_cast; ring
  have k1 : ‖((a - b : ℝ) : ℂ) * D‖ ≤ (upR m - 1) * b * A := by
    rw [norm_mul, Complex.norm_real, Real.norm_eq_abs]
    have h := hn
    rw [NearR, abs_of_pos hb] at h
    exact mul_le_mul h hD (norm_nonneg _) ((abs_nonneg _).trans h)
  have k2 : a ≤ upR m * b := by
    have := hn.abs_le
    rw [abs_of_pos hb] at this
    exact (le_abs_self a).trans this
  have k3 := mul_le_mul_of_nonneg_right k2 (show 0 ≤ (θ - 1) * A + θ * B from
    add_nonneg (mul_nonneg (by linarith) hA) (mul_nonneg (by linarith) hB))
  rw [e]
  calc _ ≤ upR m * b * ((θ - 1) * A + θ * B) + (upR m - 1) * b * A := (norm_add_le _ _).trans (add_le_add (hg.trans k3) k1)
    _ = _ := by ring

theorem toC_real (x : Rat) : toC (x, 0) = ((x : ℝ) : ℂ) := by apply Complex.ext <;> simp [toC]

/-- Both transforms between real and complex data, with the factors as computed. -/
theorem real_transforms_near (hfl : RoundsAll fl) (hsq : RoundsSqrt sq) (F : Rounded.FFTLibrary) (u : τ → Uniform τ Rat)
    {R : Nat} (dx dk : Dom τ) (norm : FFT.Norm) (hη : 0 ≤ η) (hF : FFTLibrary.Accurate F dx.length η)
    (hx : RoundedMesh u R norm dx) (hk : Valid dk) (hs : sizes dk = halfShape (sizes dx)) (hl : dx.length = dk.length) :
    ∃ af ab : ℝ, 0 ≤ af ∧ 0 ≤ ab ∧
      (∀ f, ∃ g, Rounded.fftR fl sq F u dk dx norm f = .ok g ∧ ∀ ks, Within (halfShape (sizes dx)) ks →
        ‖toC (g ks) - af * dft (-1) (sizes dx) (fun xs => ((f xs : ℝ) : ℂ)) ks‖ ≤
          ((1 + η) * upR 1 - 1) * (af * mass (sizes dx) (fun xs => |(f xs : ℝ)|))) ∧
      (∀ g X, Hermitian (sizes dx) X → ∃ f, Rounded.ifftR fl sq F u dx dk norm g = .ok f ∧ ∀ xs, Within (sizes dx) xs →
        ‖((f xs : ℝ) : ℂ) - ab * dft 1 (sizes dx) X xs‖ ≤
          ab * (((1 + η) * upR 1 - 1) * mass (sizes dx) (fun ks => ‖X ks‖) +
            (1 + η) * upR 1 * (2 * mass (halfShape (sizes dx)) (fun ks => ‖toC (g ks) - X ks‖)))) ∧
      NearR ((6 * R + 10) * dx.length) af (forwardFactor (realSampling u) dx norm) ∧
      NearR ((12 * R + 22) * dx.length) ab (backwardFactor (realSampling u) dx norm) ∧
      NearR (5 * dx.length) (af * ab * (card dx : ℝ)) (if norm = .off then (card dx : ℝ) else 1) := by
  have hne : dk ≠ [] := by
    intro h
    rw [h] at hl
    exact hx.ne (List.length_eq_zero_iff.1 hl)
  obtain ⟨cf, cb, pf, pb, h1, h2, h3, h4, h5⟩ := finish_near hfl hsq dk hx
  obtain ⟨-, -, L1, L2, -⟩ := factor_pos hx
  refine ⟨_, _, mul_nonneg pf.le L1, mul_nonneg pb.le L2, ?_, ?_, h3, h4, h5⟩
  · intro f
    obtain ⟨o, ho, ho2⟩ := hF.rfftn (FFT.toKokkos norm) (sizes dx) f (sizes_length dx) (rounded_sizes_pos hx)
    obtain ⟨g, hg, hg2⟩ := h1 o
    simp only [toC_real] at ho2
    refine ⟨g, ?_, fun ks hks => ?_⟩
    · rw [Rounded.fftR, Rounded.fftImplRC, ranks_ok hl hx.ne, Res.ok_bind, shape_eq hx.valid, Res.ok_bind, shape_eq hk,
        Res.ok_bind, show decide (FFT.Dir.forward = FFT.Dir.forward) = true from rfl, Res.guardAbort_true, Res.ok_bind,
        axes_eq hx.valid.1, hs, show (tags dx).length = dx.length by simp [tags], ho, Res.ok_bind]
      exact hg
    · have k := stage hη pf L1 (norm_dft_le _ _ _ _) (ho2 ks hks) (hg2 ks)
      simp only [Complex.norm_real, Real.norm_eq_abs] at k
      exact k
  · intro g X hX
    obtain ⟨o, ho, ho2⟩ := hF.irfftn (FFT.toKokkos norm) (sizes dx) g X (sizes_length dx) (rounded_sizes_pos hx) hX
    obtain ⟨f, hf, hf2⟩ := h2 (fun ks => (o ks, 0))
    obtain ⟨r, hr, hr2⟩ := finish_real hfl hf
    refine ⟨r, ?_, fun xs hxs => ?_⟩
    · rw [Rounded.ifftR, Rounded.fftImplCR, ranks_ok hl.symm hne, Res.ok_bind, shape_eq hk, Res.ok_bind, shape_eq hx.valid,
        Res.ok_bind, show decide (FFT.Dir.backward = FFT.Dir.backward) = true from rfl, Res.guardAbort_true, Res.ok_bind,
        axes_eq hk.1, hs, show (tags dk).length = dx.length by rw [hl]; simp [tags], ho, Res.ok_bind]
      exact hr
    · have k1 := hf2 xs
      rw [hr2 xs] at k1
      have k := stage_real pb L2 (norm_dft_le _ _ _ _) (ho2 xs hxs) k1
      rw [toC_real] at k
      exact k

/-- `ifft` to real data, whatever the rounding: compared with the transform of any conjugate symmetric spectrum `X`. -/
theorem C85_irfft (hfl : RoundsAll fl) (hsq : RoundsSqrt sq) (F : Rounded.FFTLibrary) (u : τ → Uniform τ Rat) {R : Nat}
    (dx dk : Dom τ) (norm : FFT.Norm) (hη : 0 ≤ η) (hF : FFTLibrary.Accurate F dx.length η) (hx : RoundedMesh u R norm dx)
    (hk : Valid dk) (hs : sizes dk = halfShape (sizes dx)) (hl : dx.length = dk.length) (g : List Nat → Rat × Rat)
    (X : List Nat → ℂ) (hX : Hermitian (sizes dx) X) :
    ∃ f, Rounded.ifftR fl sq F u dx dk norm g = .ok f ∧ ∀ xs, Within (sizes dx) xs →
      ‖((f xs : ℝ) : ℂ) - backwardFactor (realSampling u) dx norm * dft 1 (sizes dx) X xs‖ ≤
        backwardFactor (realSampling u) dx norm *
          (((1 + η) * (1 + 1 / 2 ^ 53) ^ ((12 * R + 22) * dx.length + 1) - 1) * mass (sizes dx) (fun ks => ‖X ks‖) +
            (1 + η) * (1 + 1 / 2 ^ 53) ^ ((12 * R + 22) * dx.length + 1) *
              (2 * mass (halfShape (sizes dx)) (fun ks => ‖toC (g ks) - X ks‖))) := by
  obtain ⟨af, ab, -, -, -, h2, -, h4, -⟩ := real_transforms_near hfl hsq F u dx dk norm hη hF hx hk hs hl
  obtain ⟨f, hf, hf2⟩ := h2 g X hX
  refine ⟨f, hf, fun xs hxs => ?_⟩
  have := change_real (one_le_theta hη 1) (factor_pos hx).2.1 (norm_dft_le _ _ _ _)
    (mul_nonneg (by norm_num) (mass_nonneg fun _ => norm_nonneg _)) h4 (hf2 xs hxs)
  change _ ≤ _ * (((1 + η) * upR _ - 1) * _ + (1 + η) * upR _ * _)
  rw [add_comm _ 1, upR_add, ← mul_assoc (1 + η)]
  exact this

theorem half_prod_le {ns : List Nat} (h : ∀ n ∈ ns, 0 < n) : (halfShape ns).prod ≤ ns.prod := by
  induction ns with
  | nil => exact le_refl _
  | cons n ns ih =>
    cases ns with
    | nil =>
      have := h n (by simp)
      simp [halfShape]
      omega
    | cons m ns =>
      simp only [halfShape, List.prod_cons] at ih ⊢
      exact Nat.mul_le_mul_left _ (ih fun q hq => h q (List.mem_cons_of_mem _ hq))

/-- `ifft` after `fft` on real data, whatever the rounding and however inaccurate the coordinates of the mesh. -/
theorem C85_inverse_real (hfl : RoundsAll fl) (hsq : RoundsSqrt sq) (F : Rounded.FFTLibrary) (u : τ → Uniform τ Rat) {R : Nat}
    (dx dk : Dom τ) (norm : FFT.Norm) (hη : 0 ≤ η) (hF : FFTLibrary.Accurate F dx.length η) (hx : RoundedMesh u R norm dx)
    (hk : Valid dk) (hs : sizes dk = halfShape (sizes dx)) (hl : dx.length = dk.length) (f : List Nat → Rat) {θ : ℝ}
    (hθ : θ = (1 + η) * (1 + 1 / 2 ^ 53)) :
    ∃ r, (do let g ← Rounded.fftR fl sq F u dk dx norm f; Rounded.ifftR fl sq F u dx dk norm g) = .ok r ∧
      ∀ xs, Within (sizes dx) xs →
        |(r xs : ℝ) - (if norm = .off then (card dx : ℝ) else 1) * f xs| ≤
          (θ * (2 * θ - 1) * (1 + 1 / 2 ^ 53) ^ (5 * dx.length) - 1) *
            ((if norm = .off then (card dx : ℝ) else 1) * mass (sizes dx) (fun xs => |(f xs : ℝ)|)) := by
  obtain ⟨af, ab, pf, pb, h1, h2, -, -, h5⟩ := real_transforms_near hfl hsq F u dx dk norm hη hF hx hk hs hl
  obtain ⟨g, hg, hg2⟩ := h1 f
  obtain ⟨r, hr, hr2⟩ := h2 g _ (hermitian_mul (hermitian_dft (s := -1) (Or.inr rfl) (sizes dx) (fun xs => (f xs : ℝ))) af)
  refine ⟨r, by rw [hg, Res.ok_bind, hr], fun xs hxs => ?_⟩
  have hcard := (factor_pos hx).2.2.2.2
  have eθ : (1 + η) * upR 1 = θ := by rw [hθ, upR, pow_one]
  rw [eθ] at hg2 hr2
  set S := mass (sizes dx) (fun xs => |(f xs : ℝ)|) with hS
  have θ1 : 1 ≤ θ := by rw [← eθ]; exact one_le_theta hη 1
  have S0 : 0 ≤ S := mass_nonneg fun _ => abs_nonneg _
  have hn : ((sizes dx).prod : ℝ) = card dx := by rw [prod_sizes]
  have m2 : mass (sizes dx) (fun ks => ‖(af : ℂ) * dft (-1) (sizes dx) (fun xs => ((f xs : ℝ) : ℂ)) ks‖) ≤
      card dx * (af * S) := by
    rw [← hn, ← mass_const]
    refine mass_le fun ks _ => ?_
    rw [norm_mul, Complex.norm_of_nonneg pf]
    refine mul_le_mul_of_nonneg_left ?_ pf
    have := norm_dft_le (-1) (sizes dx) (fun xs => ((f xs : ℝ) : ℂ)) ks
    simp only [Complex.norm_real, Real.norm_eq_abs] at this
    exact this
  have m3 : mass (halfShape (sizes dx)) (fun ks => ‖toC (g ks) - af * dft (-1) (sizes dx) (fun xs => ((f xs : ℝ) : ℂ)) ks‖) ≤
      card dx * ((θ - 1) * (af * S)) := by
    refine (mass_le hg2).trans ?_
    rw [mass_const, ← hn]
    refine mul_le_mul_of_nonneg_right ?_ (mul_nonneg (by linarith) (mul_nonneg pf S0))
    exact_mod_cast half_prod_le (rounded_sizes_pos hx)
  have e := dft_dft (s := -1) (Or.inr rfl) (sizes dx) (fun xs => ((f xs : ℝ) : ℂ)) hxs
  rw [_root_.neg_neg, prod_sizes] at e
  have k := hr2 xs hxs
  rw [dft_mul, e] at k
  have k2 : ab * ((θ - 1) * mass (sizes dx) (fun ks => ‖(af : ℂ) * dft (-1) (sizes dx) (fun xs => ((f xs : ℝ) : ℂ)) ks‖) +
      θ * (2 * mass (halfShape (sizes dx))
        (fun ks => ‖toC (g ks) - af * dft (-1) (sizes dx) (fun xs => ((f xs : ℝ) : ℂ)) ks‖))) ≤
      ab * ((θ - 1) * (card dx * (af * S)) + θ * (2 * (card dx * ((θ - 1) * (af * S))))) := by
    refine mul_le_mul_of_nonneg_left (add_le_add ?_ ?_) pb
    · exact mul_le_mul_of_nonneg_left m2 (by linarith)
    · exact mul_le_mul_of_nonneg_left (mul_le_mul_of_nonneg_left m3 (by norm_num)) (by linarith)
  have m4 : ‖((r xs : ℝ) : ℂ) - ((af * ab * card dx : ℝ) : ℂ) * ((f xs : ℝ) : ℂ)‖ ≤
      (θ * (2 * θ - 1) - 1) * (af * ab * card dx * S) := by
    have e2 : ((af * ab * card dx : ℝ) : ℂ) * ((f xs : ℝ) : ℂ) = ab * (af * ((card dx : ℂ) * ((f xs : ℝ) : ℂ))) := by
      push_cast
      ring
    rw [e2]
    calc _ ≤ _ := k.trans k2
      _ = _ := by ring
  have hκ : 0 < (if norm = .off then (card dx : ℝ) else 1) := by split_ifs <;> [exact hcard; exact one_pos]
  have hD : ‖((f xs : ℝ) : ℂ)‖ ≤ S := by
    rw [Complex.norm_real, Real.norm_eq_abs]
    exact le_mass (f := fun xs => |(f xs : ℝ)|) (fun _ => abs_nonneg _) hxs
  have fin := change_factor (one_le_mul_of_one_le_of_one_le θ1 (by linarith)) hκ hD h5 m4
  rw [← Complex.ofReal_mul, ← Complex.ofReal_sub, Complex.norm_real, Real.norm_eq_abs] at fin
  exact fin

/-! ## Wave numbers -/

/-- `init_fourier_space` on a mesh of 2 to `2³¹` resolved points, whatever the rounding: mode `k` has the wave number
`2 * pi * m / (n * dx)`, where `m` is the integer congruent to `k` modulo `n` between `-n / 2` (included) and `n / 2` (excluded),
up to a relative error of some roundings.
Missing: more than `2³¹` points (`C49_space_overflow`). -/
theorem C85_wave_numbers_partial (hfl : RoundsAll fl) (ft t : τ) (u : Uniform τ Rat) (x : Dom τ) {R : Nat} (hx : Valid x)
    (ht : tags x = [t]) (hR : R ≤ 2 ^ 24) (hs : FullSide u R t x) (hn : len t x ≤ 2 ^ 31) :
    ∃ p, Rounded.initFourierSpace fl ft t u x = .ok p ∧ p.ref = [(ft, 0)] ∧ p.period.toNat = len t x ∧
      ∀ k, k < len t x → ∃ (m : Int) (w : Rat),
        Rounded.periodicCoordinate fl p [(ft, BitVec.ofNat 64 k)] = .ok w ∧
        |(w : ℝ) - 2 * Real.pi * m / (len t x * u.step)| ≤
          (13 * R + 16) / 2 ^ 53 * |2 * Real.pi * m / (len t x * u.step)| ∧
        -(len t x : Int) ≤ 2 * m ∧ 2 * m < len t x ∧ (len t x : Int) ∣ k - m := by
  obtain ⟨hr, hs, htop, h2, hsp⟩ := hs
  have hseg := seg_of_valid hx ht
  have hle := (hx.2 t (by rw [ht]; simp)).1
  have hhi : lo t x + len t x = hi t x := by rw [Spec.len]; omega
  rw [← hhi] at htop hsp
  generalize lo t x = b at *
  generalize len t x = n at *
  have hn0 : (0 : ℝ) < n := by exact_mod_cast (by omega : 0 < n)
  have hn1 : (0 : ℝ) < ((n - 1 : Nat) : ℝ) := by exact_mod_cast (by omega : 0 < n - 1)
  have hs0 : (0 : ℝ) < (u.step : ℝ) := by exact_mod_cast hs
  have hpi := Real.pi_pos
  have hq : 2 * (n - 1) * (n - 1) < 2 ^ 63 := by
    have h3 : n - 1 ≤ 2 ^ 31 - 1 := by omega
    have h4 : 2 * (n - 1) * (n - 1) ≤ 2 * (2 ^ 31 - 1) * (2 ^ 31 - 1) :=
      Nat.mul_le_mul (Nat.mul_le_mul_left _ h3) h3
    omega
  obtain ⟨l, hl, nl⟩ := length_near hfl hr hs htop h2 hsp
  -- the upper bound of the window
  obtain ⟨Q, hQ⟩ : ∃ Q : Rat, Q = ((2 * (n - 1) * (n - 1) : Nat) : Rat) := ⟨_, rfl⟩
  have q1 : NearR 1 ((fl Q : Rat) : ℝ) ((2 * (n - 1) * (n - 1) : Nat) : ℝ) := by
    refine NearR.fl hfl ?_
    rw [hQ, Rat.cast_natCast]
    exact NearR.refl _
  have q2 : NearR (6 * R + 2) ((fl ((n : Rat) * l) : Rat) : ℝ) ((n : ℝ) * (((n - 1 : Nat) : ℝ) * u.step)) := by
    refine NearR.fl hfl (m := 6 * R + 1) ?_
    have := (NearR.refl (n : ℝ)).mul nl
    push_cast
    exact this.mono (by omega)
  have q3 : NearR (12 * R + 6) ((fl (fl Q / fl ((n : Rat) * l)) : Rat) : ℝ)
      (((2 * (n - 1) * (n - 1) : Nat) : ℝ) / ((n : ℝ) * (((n - 1 : Nat) : ℝ) * u.step))) := by
    refine NearR.fl hfl (m := 12 * R + 5) ?_
    have := q1.div q2 (by omega) (by positivity)
    push_cast at this ⊢
    exact this.mono (by omega)
  obtain ⟨B, hB⟩ : ∃ B : Rat, B = fl (fl (fl Q / fl ((n : Rat) * l)) * Rounded.piDouble) := ⟨_, rfl⟩
  have q4 : NearR (12 * R + 8) (B : ℝ) (2 * Real.pi / (n * u.step) * ((n - 1 : Nat) : ℝ)) := by
    rw [hB]
    refine NearR.fl hfl (m := 12 * R + 7) ?_
    have := q3.mul piDouble_near
    have e : ((2 * (n - 1) * (n - 1) : Nat) : ℝ) / ((n : ℝ) * (((n - 1 : Nat) : ℝ) * u.step)) * Real.pi =
        2 * Real.pi / (n * u.step) * ((n - 1 : Nat) : ℝ) := by
      push_cast
      field_simp
    rw [e] at this
    push_cast
    exact this
  have hB0 : 0 < B := by
    have := q4.pos (by omega) (by positivity)
    exact_mod_cast this
  obtain ⟨p, d, hp, ho, hre, hpe, -, -, -, hst0, hst⟩ := C62_periodic_init hfl ft hB0 (n := n) (p := n) (by omega) (by omega)
    (by omega) (by omega)
  rw [sub_zero] at hst
  have q5 : NearR (12 * R + 11) (p.step : ℝ) (2 * Real.pi / (n * u.step)) := by
    have k1 : NearR 3 (p.step : ℝ) ((B : ℝ) / ((n - 1 : Nat) : ℝ)) := by
      refine NearR.of_rel ?_
      have hB1 : (0 : ℝ) < (B : ℝ) := by exact_mod_cast hB0
      rw [abs_of_pos (show 0 < (B : ℝ) / ((n - 1 : Nat) : ℝ) from div_pos hB1 hn1)]
      have k := (Rat.cast_le (K := ℝ)).2 hst
      push_cast at k ⊢
      exact k
    have k2 := q4.mul (NearR.refl (1 / ((n - 1 : Nat) : ℝ)))
    rw [mul_one_div, mul_one_div, mul_div_cancel_right₀ _ hn1.ne'] at k2
    exact (k1.trans k2).mono (by omega)
  refine ⟨p, ?_, hre, hpe, ?_⟩
  · rw [Rounded.initFourierSpace, hseg, extents_nat t (by omega), Res.ok_bind, Nat.add_sub_cancel_left, vec, One.get,
      Res.ok_bind, hl, Res.ok_bind,
      show (1 : I64) = BitVec.ofNat 64 1 from rfl, sSub_nat (by omega) (by omega), Res.ok_bind,
      show (2 : I64) = BitVec.ofNat 64 2 from rfl, sMul_nat (by omega) (by omega) (by omega), Res.ok_bind,
      sMul_nat hq (by omega) (by omega), Res.ok_bind, toInt_ofNat hq, toInt_ofNat (by omega), Int.cast_natCast, Int.cast_natCast,
      fl_nat hfl (show n ≤ 2 ^ 53 by omega), ← hQ, ← hB, hp]
    rfl
  · intro k hk
    obtain ⟨w, m, h3, h4, h5, h6, h7⟩ := (C62_periodic_partial hfl p ft hre n hpe (by omega) hn).2 k (by omega)
    refine ⟨m, w, h3, ?_, by omega, by omega, h6⟩
    rw [ho, zero_add] at h7
    have k1 : NearR 3 (w : ℝ) ((m : ℝ) * (p.step : ℝ)) := by
      refine NearR.of_rel ?_
      have k := (Rat.cast_le (K := ℝ)).2 h7
      push_cast at k ⊢
      linarith
    have k2 := (NearR.refl (m : ℝ)).mul q5
    have e : (m : ℝ) * (2 * Real.pi / (n * u.step)) = 2 * Real.pi * m / (n * u.step) := by ring
    rw [e] at k2
    have k3 := ((k1.trans k2).mono (show 3 + (0 + (12 * R + 11)) ≤ 12 * R + 14 by omega)).bound (by omega)
    refine k3.trans (mul_le_mul_of_nonneg_right ?_ (abs_nonneg _))
    rw [div_le_div_iff_of_pos_right (by norm_num)]
    push_cast
    have : (0 : ℝ) ≤ R := Nat.cast_nonneg R
    linarith

/-! ## Cases that meet the hypotheses -/

/-- There is such a square root. -/
theorem sqrt_exists : ∃ sq, RoundsSqrt sq := by
  have : ∀ x : Rat, ∃ q : Rat, 0 ≤ x → |(q : ℝ) - √(x : ℝ)| ≤ √(x : ℝ) / 2 ^ 53 := by
    intro x
    by_cases hx : 0 < x
    · have h : 0 < √(x : ℝ) := Real.sqrt_pos.2 (by exact_mod_cast hx)
      obtain ⟨q, hq⟩ := exists_rat_near √(x : ℝ) (show 0 < √(x : ℝ) / 2 ^ 53 by positivity)
      exact ⟨q, fun _ => by rw [abs_sub_comm]; exact hq.le⟩
    · refine ⟨0, fun h => ?_⟩
      rw [show x = 0 by linarith]
      simp
  choose sq h using this
  exact ⟨sq, h⟩

theorem approx_complex (z : ℂ) {ε : ℝ} (hε : 0 ≤ ε) (hz : ‖z‖ ≤ 0 ∨ 0 < ε) : ∃ q, ‖toC q - z‖ ≤ ε := by
  rcases hz with hz | hz
  · refine ⟨(0, 0), ?_⟩
    have : z = 0 := norm_le_zero_iff.1 hz
    have e : toC (0, 0) = 0 := by apply Complex.ext <;> simp [toC]
    rw [this, e, sub_self, norm_zero]
    exact hε
  · obtain ⟨a, ha⟩ := exists_rat_near z.re (show 0 < ε / 2 by positivity)
    obtain ⟨b, hb⟩ := exists_rat_near z.im (show 0 < ε / 2 by positivity)
    refine ⟨(a, b), ?_⟩
    refine (Complex.norm_le_abs_re_add_abs_im _).trans ?_
    simp only [toC, Complex.sub_re, Complex.sub_im]
    rw [abs_sub_comm] at ha hb
    linarith

open Classical in
/-- A library of the given tolerance: every value is rounded to a rational number. -/
noncomputable def accurateLibrary (η : ℝ) : Rounded.FFTLibrary where
  fftn _ norm ns _ f := .ok fun ks =>
    if h : ∃ q, ‖toC q - libForward ns norm * dft (-1) ns (fun xs => toC (f xs)) ks‖ ≤
      η * (libForward ns norm * mass ns (fun xs => ‖toC (f xs)‖)) then h.choose else (0, 0)
  ifftn _ norm ns _ f := .ok fun ks =>
    if h : ∃ q, ‖toC q - libBackward ns norm * dft 1 ns (fun xs => toC (f xs)) ks‖ ≤
      η * (libBackward ns norm * mass ns (fun xs => ‖toC (f xs)‖)) then h.choose else (0, 0)
  rfftn _ norm ns _ f := .ok fun ks =>
    if h : ∃ q, ‖toC q - libForward ns norm * dft (-1) ns (fun xs => toC (f xs, 0)) ks‖ ≤
      η * (libForward ns norm * mass ns (fun xs => ‖toC (f xs, 0)‖)) then h.choose else (0, 0)
  irfftn _ norm _ ns g := .ok fun xs =>
    if h : ∃ q : Rat × Rat, ‖toC q - libBackward ns norm * dft 1 ns (complete ns (fun ks => toC (g ks))) xs‖ ≤
      η * (libBackward ns norm * mass ns (fun ks => ‖complete ns (fun ks => toC (g ks)) ks‖)) then h.choose.1 else 0

theorem mass_add (ns : List Nat) (f g : List Nat → ℝ) : mass ns (fun xs => f xs + g xs) = mass ns f + mass ns g := by
  induction ns generalizing f g with
  | nil => rfl
  | cons n ns ih => simp only [mass, ih, Finset.sum_add_distrib]

theorem sum_mod_neg_real (n : Nat) (g : Nat → ℝ) :
    ∑ i ∈ Finset.range n, g ((n - i) % n) = ∑ i ∈ Finset.range n, g i := by
  refine Finset.sum_nbij' (fun i => (n - i) % n) (fun i => (n - i) % n) ?_ ?_ ?_ ?_ ?_
  · intro i hi; rw [Finset.mem_range] at *; exact Nat.mod_lt _ (by omega)
  · intro i hi; rw [Finset.mem_range] at *; exact Nat.mod_lt _ (by omega)
  · intro i hi
    have h : i < n := Finset.mem_range.1 hi
    have := Fourier.neg_neg (List.Forall₂.cons h List.Forall₂.nil : Within [n] [i])
    simpa [neg] using this
  · intro i hi
    have h : i < n := Finset.mem_range.1 hi
    have := Fourier.neg_neg (List.Forall₂.cons h List.Forall₂.nil : Within [n] [i])
    simpa [neg] using this
  · intro i _; rfl

theorem mass_neg (ns : List Nat) (f : List Nat → ℝ) : mass ns (fun xs => f (neg ns xs)) = mass ns f := by
  induction ns generalizing f with
  | nil => rfl
  | cons n ns ih =>
    simp only [mass, neg]
    rw [← sum_mod_neg_real n (fun i => mass ns (fun is => f (i :: is)))]
    exact Finset.sum_congr rfl fun i _ => ih (fun is => f ((n - i) % n :: is))

open Classical in
theorem mass_half (ns : List Nat) (f : List Nat → ℝ) (h : ∀ xs, 0 ≤ f xs) :
    mass ns (fun ks => if Within (halfShape ns) ks then f ks else 0) ≤ mass (halfShape ns) f := by
  induction ns generalizing f with
  | nil =>
    have : Within (halfShape []) [] := List.Forall₂.nil
    simp [mass, halfShape, this]
  | cons n ns ih =>
    cases ns with
    | nil =>
      simp only [mass, halfShape]
      have e : ∀ i, Within [n / 2 + 1] [i] ↔ i < n / 2 + 1 := fun i =>
        ⟨fun h => by cases h with | cons h _ => exact h, fun h => .cons h .nil⟩
      simp only [e]
      rw [← Finset.sum_filter]
      refine Finset.sum_le_sum_of_subset_of_nonneg ?_ fun i _ _ => h _
      intro i hi
      rw [Finset.mem_filter] at hi
      exact Finset.mem_range.2 hi.2
    | cons m ns =>
      simp only [mass] at ih ⊢
      show _ ≤ mass (n :: halfShape (m :: ns)) f
      simp only [mass]
      refine Finset.sum_le_sum fun i hi => ?_
      have e : ∀ is, Within (halfShape (n :: m :: ns)) (i :: is) ↔ Within (halfShape (m :: ns)) is := fun is =>
        ⟨fun h => by cases h with | cons _ h => exact h, fun h => .cons (Finset.mem_range.1 hi) h⟩
      simp only [e]
      exact ih (fun is => f (i :: is)) (fun _ => h _)

/-- Completing the half of a spectrum at most doubles the distances. -/
theorem complete_near {ns : List Nat} {X : List Nat → ℂ} (hX : Hermitian ns X) (g : List Nat → ℂ) :
    mass ns (fun ks => ‖complete ns g ks - X ks‖) ≤ 2 * mass (halfShape ns) (fun ks => ‖g ks - X ks‖) := by
  classical
  have k : ∀ ks, Within ns ks → ‖complete ns g ks - X ks‖ ≤
      (if Within (halfShape ns) ks then ‖g ks - X ks‖ else 0) +
        (if Within (halfShape ns) (neg ns ks) then ‖g (neg ns ks) - X (neg ns ks)‖ else 0) := by
    intro ks hks
    rw [complete]
    by_cases h : Within (halfShape ns) ks
    · rw [if_pos h, if_pos h]
      have : 0 ≤ (if Within (halfShape ns) (neg ns ks) then ‖g (neg ns ks) - X (neg ns ks)‖ else 0) := by
        split_ifs <;> positivity
      linarith
    · have h2 := (half_or_neg hks).resolve_left h
      rw [if_neg h, if_neg h, if_pos h2, zero_add, hX ks hks, ← Complex.norm_conj, map_sub, Complex.conj_conj]
  refine (mass_le k).trans ?_
  rw [mass_add, mass_neg ns (fun ks => if Within (halfShape ns) ks then ‖g ks - X ks‖ else 0)]
  have := mass_half ns (fun ks => ‖g ks - X ks‖) (fun _ => norm_nonneg _)
  linarith

theorem accurateLibrary_ok (r : Nat) (hη : 0 < η) : FFTLibrary.Accurate (accurateLibrary η) r η := by
  have key : ∀ (s L : ℝ) (ns : List Nat) (f : List Nat → ℂ) (ks : List Nat), 0 ≤ L →
      ∃ q, ‖toC q - L * dft s ns f ks‖ ≤ η * (L * mass ns (fun xs => ‖f xs‖)) := by
    intro s L ns f ks hL
    have m0 : 0 ≤ mass ns (fun xs => ‖f xs‖) := mass_nonneg fun _ => norm_nonneg _
    have h := norm_dft_le s ns f ks
    refine approx_complex _ (by positivity) ?_
    rcases (mul_nonneg hL m0).eq_or_lt with e | e
    · refine Or.inl ?_
      rw [norm_mul, Complex.norm_of_nonneg hL, e]
      exact mul_le_mul_of_nonneg_left h hL
    · exact Or.inr (mul_pos hη e)
  have LF : ∀ ns norm, 0 ≤ libForward ns norm := fun ns norm => by cases norm <;> simp only [libForward] <;> positivity
  have LB : ∀ ns norm, 0 ≤ libBackward ns norm := fun ns norm => by cases norm <;> simp only [libBackward] <;> positivity
  refine ⟨fun norm ns f _ _ => ⟨_, rfl, fun ks _ => ?_⟩, fun norm ns f _ _ => ⟨_, rfl, fun ks _ => ?_⟩,
    fun norm ns f _ _ => ⟨_, rfl, fun ks _ => ?_⟩, fun norm ns g X _ _ hX => ⟨_, rfl, fun xs hxs => ?_⟩⟩
  · have h := key (-1) _ ns (fun xs => toC (f xs)) ks (LF ns norm)
    rw [dif_pos h]
    exact h.choose_spec
  · have h := key 1 _ ns (fun xs => toC (f xs)) ks (LB ns norm)
    rw [dif_pos h]
    exact h.choose_spec
  · have h := key (-1) _ ns (fun xs => toC (f xs, 0)) ks (LF ns norm)
    rw [dif_pos h]
    exact h.choose_spec
  · have h := key 1 _ ns (complete ns (fun ks => toC (g ks))) xs (LB ns norm)
    rw [dif_pos h]
    have k := h.choose_spec
    set q := h.choose
    set L := libBackward ns norm
    have L0 : 0 ≤ L := LB ns norm
    set Y := complete ns (fun ks => toC (g ks))
    have hY := complete_near hX (fun ks => toC (g ks))
    set B := 2 * mass (halfShape ns) (fun ks => ‖toC (g ks) - X ks‖)
    obtain ⟨a, ha⟩ := Complex.conj_eq_iff_real.1 (dft_hermitian (s := 1) (Or.inl rfl) hX hxs)
    have hYX : ‖dft 1 ns Y xs - dft 1 ns X xs‖ ≤ B := by
      rw [dft_sub]
      exact (norm_dft_le _ _ _ _).trans hY
    have hm : mass ns (fun ks => ‖Y ks‖) ≤ mass ns (fun ks => ‖X ks‖) + B := by
      refine le_trans ?_ (add_le_add (le_refl _) hY)
      rw [← mass_add]
      refine mass_le fun ks _ => ?_
      have := norm_sub_norm_le (Y ks) (X ks)
      linarith
    have e : toC (q.1, 0) - L * dft 1 ns X xs = (((toC q - L * dft 1 ns X xs).re : ℝ) : ℂ) := by
      rw [ha]
      apply Complex.ext <;> simp [toC]
    rw [e, Complex.norm_real, Real.norm_eq_abs]
    refine (Complex.abs_re_le_norm _).trans ?_
    have e2 : toC q - L * dft 1 ns X xs = (toC q - L * dft 1 ns Y xs) + L * (dft 1 ns Y xs - dft 1 ns X xs) := by ring
    have k2 : ‖(L : ℂ) * (dft 1 ns Y xs - dft 1 ns X xs)‖ ≤ L * B := by
      rw [norm_mul, Complex.norm_of_nonneg L0]
      exact mul_le_mul_of_nonneg_left hYX L0
    have k3 := mul_le_mul_of_nonneg_left (mul_le_mul_of_nonneg_left hm L0) hη.le
    rw [e2]
    calc _ ≤ η * (L * (mass ns (fun ks => ‖X ks‖) + B)) + L * B := (norm_add_le _ _).trans (add_le_add (k.trans k3) k2)
      _ = _ := by ring

/-- A mesh of 8 by 5 points on `[-1, 6] × [0, 1]`. -/
def fftSamplings (t : String) : Uniform String Rat := if t = "x" then ⟨-1, 1, [("x", 0)]⟩ else ⟨0, 1 / 4, [(t, 0)]⟩

theorem fftSamplings_mesh (norm : FFT.Norm) : RoundedMesh fftSamplings 2 norm [("x", (0, 8)), ("y", (0, 5))] := by
  have hl : ∀ t ∈ tags [("x", ((0 : U64), (8 : U64))), ("y", (0, 5))], t = "x" ∨ t = "y" := by
    intro t ht
    simpa [tags] using ht
  refine ⟨⟨by decide, ?_⟩, by simp, by simp, ?_, fun _ => ⟨by norm_num, ?_⟩⟩
  · intro t ht
    rcases hl t ht with rfl | rfl <;> exact ⟨by decide, by decide⟩
  · intro t ht
    rcases hl t ht with rfl | rfl <;> decide
  · intro t ht
    rcases hl t ht with rfl | rfl
    · exact ⟨by simp [fftSamplings], by simp [fftSamplings], by decide, by decide, by decide +kernel⟩
    · exact ⟨by simp [fftSamplings], by simp [fftSamplings], by decide, by decide, by decide +kernel⟩

/-- A forward and a backward transform of 40 points with a library that is accurate to `2⁻⁵⁰` give back the data to `2⁻⁴⁸`
times the sum of their absolute values. -/
theorem C85_example (f : List Nat → Rat × Rat) (norm : FFT.Norm) (hnorm : norm ≠ .off) : ∃ sq, RoundsSqrt sq ∧
    ∃ r, (do
      let g ← Rounded.fftC round53 sq (accurateLibrary (1 / 2 ^ 50)) fftSamplings [("kx", (0, 8)), ("ky", (0, 5))]
        [("x", (0, 8)), ("y", (0, 5))] norm f
      Rounded.ifftC round53 sq (accurateLibrary (1 / 2 ^ 50)) fftSamplings [("x", (0, 8)), ("y", (0, 5))]
        [("kx", (0, 8)), ("ky", (0, 5))] norm g) = .ok r ∧
    ∀ i j, i < 8 → j < 5 → ‖toC (r [i, j]) - toC (f [i, j])‖ ≤
      1 / 2 ^ 48 * ∑ a ∈ Finset.range 8, ∑ b ∈ Finset.range 5, ‖toC (f [a, b])‖ := by
  obtain ⟨sq, hsq⟩ := sqrt_exists
  have e1 : sizes [("x", ((0 : U64), (8 : U64))), ("y", (0, 5))] = [8, 5] := by decide
  have e2 : sizes [("kx", ((0 : U64), (8 : U64))), ("ky", (0, 5))] = [8, 5] := by decide
  have hk : Valid [("kx", ((0 : U64), (8 : U64))), ("ky", (0, 5))] := by
    refine ⟨by decide, ?_⟩
    intro t ht
    have : t = "kx" ∨ t = "ky" := by simpa [tags] using ht
    rcases this with rfl | rfl <;> exact ⟨by decide, by decide⟩
  obtain ⟨r, hr, h⟩ := C85_inverse round53_all hsq (accurateLibrary (1 / 2 ^ 50)) fftSamplings (R := 2)
    [("x", (0, 8)), ("y", (0, 5))] [("kx", (0, 8)), ("ky", (0, 5))] norm (by positivity)
    (accurateLibrary_ok _ (by positivity)) (fftSamplings_mesh norm) hk (by rw [e1, e2]) f
  refine ⟨sq, hsq, r, hr, fun i j hi hj => ?_⟩
  have k := h [i, j] (by rw [e1]; exact .cons hi (.cons hj .nil))
  rw [if_neg hnorm, if_neg hnorm, one_mul, one_mul, e1] at k
  refine k.trans ?_
  simp only [mass, List.length_cons, List.length_nil]
  refine mul_le_mul_of_nonneg_right ?_ (Finset.sum_nonneg fun _ _ => Finset.sum_nonneg fun _ _ => norm_nonneg _)
  norm_num

/-- The wave numbers of the 8 points on `[-1, 6]`: those of mode 3 and of mode 6, which is folded to -2. -/
example : ∃ p w v, Rounded.initFourierSpace round53 "kx" "x" ⟨-1, 1, [("x", 0)]⟩ [("x", (0, 8))] = .ok p ∧
    Rounded.periodicCoordinate round53 p [("kx", 3)] = .ok w ∧ Rounded.periodicCoordinate round53 p [("kx", 6)] = .ok v ∧
    |(w : ℝ) - 3 * Real.pi / 4| ≤ 1 / 2 ^ 45 ∧ |(v : ℝ) + Real.pi / 2| ≤ 1 / 2 ^ 45 := by
  have hv : Valid [("x", ((0 : U64), (8 : U64)))] := by
    refine ⟨by decide, ?_⟩
    intro t ht
    have : t = "x" := by simpa [tags] using ht
    subst this
    exact ⟨by decide, by decide⟩
  have hl : len "x" [("x", ((0 : U64), (8 : U64)))] = 8 := by decide
  obtain ⟨p, hp, -, -, h⟩ := C85_wave_numbers_partial round53_all "kx" "x" ⟨-1, 1, [("x", 0)]⟩ [("x", (0, 8))] (R := 2) hv
    (by simp [tags]) (by norm_num) ⟨rfl, by norm_num, by decide, by decide, by decide +kernel⟩ (by decide)
  rw [hl] at h
  obtain ⟨m, w, hw, w1, w2, w3, w4⟩ := h 3 (by norm_num)
  obtain ⟨m', v, hv, v1, v2, v3, v4⟩ := h 6 (by norm_num)
  have em : m = 3 := by push_cast at *; omega
  have em' : m' = -2 := by push_cast at *; omega
  subst em em'
  refine ⟨p, w, v, hp, hw, hv, ?_, ?_⟩
  · have e : 2 * Real.pi * ((3 : Int) : ℝ) / (((8 : Nat) : ℝ) * ((1 : Rat) : ℝ)) = 3 * Real.pi / 4 := by push_cast; ring
    rw [e, abs_of_pos (show 0 < 3 * Real.pi / 4 by have := Real.pi_pos; linarith)] at w1
    refine w1.trans ?_
    have := Real.pi_lt_d2
    norm_num at this ⊢
    linarith
  · have e : 2 * Real.pi * ((-2 : Int) : ℝ) / (((8 : Nat) : ℝ) * ((1 : Rat) : ℝ)) = -(Real.pi / 2) := by push_cast; ring
    rw [e, abs_neg, abs_of_pos (show 0 < Real.pi / 2 by have := Real.pi_pos; linarith), sub_neg_eq_add] at v1
    refine v1.trans ?_
    have := Real.pi_lt_d2
    norm_num at this ⊢
    linarith

/-- Two points that are closer than the resolution of the coordinates: the forward coefficient is zero and the backward one is
a quotient by zero. -/
theorem C85_unresolved (sq : Rat → Rat) :
    Rounded.fftForwardCoef round53 sq ⟨2 ^ 53, 1 / 2, [("x", 0)]⟩ [("x", (0, 2))] = .ok 0 ∧
    Rounded.fftBackwardCoef round53 sq ⟨2 ^ 53, 1 / 2, [("x", 0)]⟩ [("x", (0, 2))] = .ub := by
  have h1 : Rounded.uniformRlength round53 ⟨2 ^ 53, 1 / 2, [("x", 0)]⟩ [("x", ((0 : U64), (2 : U64)))] = .ok 0 := by
    decide +kernel
  have h3 : round53 0 = 0 := by decide +kernel
  have f1 : Rounded.fftForwardCoef round53 sq ⟨2 ^ 53, 1 / 2, [("x", 0)]⟩ [("x", (0, 2))] = .ok 0 := by
    rw [Rounded.fftForwardCoef, h1]
    have e1 : Dom.extents [("x", ((0 : U64), (2 : U64)))] = .ok [("x", 2)] := by decide +kernel
    have e2 : Vect.subInt [("x", (2 : I64))] 1 = .ok [("x", 1)] := by decide +kernel
    have e3 : Vect.value [("x", (1 : I64))] = .ok 1 := by decide +kernel
    simp only [Res.ok_bind, e1, e2, e3, zero_div, h3]
    rw [if_neg (by decide)]
  refine ⟨f1, ?_⟩
  have e1 : Dom.extents [("x", ((0 : U64), (2 : U64)))] = .ok [("x", 2)] := by decide +kernel
  have e3 : Vect.value [("x", (2 : I64))] = .ok 2 := by decide +kernel
  rw [Rounded.fftBackwardCoef, f1]
  simp only [Res.ok_bind, e1, e3, zero_mul, h3]
  rfl

end DDC.Props
