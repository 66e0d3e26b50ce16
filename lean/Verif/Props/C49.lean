import Verif.Lemmas.Fourier
import Verif.Lemmas.DomainOps
import Verif.Lemmas.Sampling
import Verif.Props.C29
import Mathlib.Tactic.LinearCombination

/-!
# C49 — Fourier meshes and normalised transforms

The transforms of the external library are exact (`Library.Exact`); real numbers are exact.
-/

namespace DDC.Props

open DDC Tup Dom Spec One FFT Fourier

set_option linter.unusedSectionVars false

variable {τ : Type} [DecidableEq τ]

/-- Specification: numbers of points of a domain, dimension by dimension. -/
def sizes (d : Dom τ) : List Nat := (tags d).map (fun t => len t d)

/-- Specification: `d` is a mesh of the uniform samplings `u`, with at least `m` points along each
dimension; the indices are below `2^63`. -/
structure UniformMesh (u : τ → Uniform τ ℝ) (m : Nat) (d : Dom τ) : Prop where
  valid : Valid d
  ne : d ≠ []
  ref : ∀ t ∈ tags d, (u t).ref = [(t, 0)]
  step : ∀ t ∈ tags d, 0 < (u t).step
  top : ∀ t ∈ tags d, hi t d < 2 ^ 63
  many : ∀ t ∈ tags d, m ≤ len t d

/-- Specification: factor applied by a forward transform, for each normalisation, as documented
(fft.hpp lines 43-53). -/
noncomputable def forwardFactor (u : τ → Uniform τ ℝ) (d : Dom τ) : Norm → ℝ
  | .off => 1
  | .forward => 1 / (card d : ℝ)
  | .backward => 1
  | .ortho => 1 / √(card d : ℝ)
  | .full => ((tags d).map (fun t => (u t).step / √(2 * Real.pi))).prod

/-- Specification: factor applied by a backward transform; `2 * pi / (n * dx)` is the distance
between two wave numbers. -/
noncomputable def backwardFactor (u : τ → Uniform τ ℝ) (d : Dom τ) : Norm → ℝ
  | .off => 1
  | .forward => 1
  | .backward => 1 / (card d : ℝ)
  | .ortho => 1 / √(card d : ℝ)
  | .full => ((tags d).map (fun t => 2 * Real.pi / (len t d * (u t).step) / √(2 * Real.pi))).prod

/-! ## The model on meshes -/

theorem axes_eq {ts : List τ} (h : ts.Nodup) : axes ts = List.range ts.length := by
  apply List.ext_getElem (by simp [axes])
  intro i h1 h2
  simp only [axes, List.length_map] at h1
  simp only [axes, List.getElem_map, List.getElem_range]
  have hm : ts[i] ∈ ts := List.getElem_mem h1
  have e := TypeSeq.getElem_rank hm
  have hl := TypeSeq.rank_lt hm
  rw [List.getElem?_eq_getElem hl, Option.some_inj] at e
  exact (List.Nodup.getElem_inj_iff h).1 e

theorem shape_eq {d : Dom τ} (hd : Valid d) : shape d = .ok (sizes d) := by
  rw [shape, extents_eq d hd.1, Res.ok_bind, Res.pure_eq]
  congr 1
  rw [sizes, tags, List.map_map, List.map_map]
  apply List.map_congr_left
  rintro ⟨t, b, e⟩ hp
  have hg : Tup.get t d = .ok (b, e) := by
    obtain ⟨v, hv⟩ := get_ok_iff_mem_tags.2 (List.mem_map_of_mem (f := Prod.fst) hp)
    have := List.inj_on_of_nodup_map hd.1 (get_mem hv) hp rfl
    rw [hv, (Prod.mk.inj this).2]
  have h1 := hd.2 t (List.mem_map_of_mem (f := Prod.fst) hp)
  rw [Spec.len, Spec.lo_ok hg, Spec.hi_ok hg] at h1
  simp only [Function.comp]
  rw [Spec.len, Spec.lo_ok hg, Spec.hi_ok hg, BitVec.toNat_sub]
  have := b.isLt
  have := e.isLt
  omega

theorem prod_sizes (d : Dom τ) : (sizes d).prod = card d := rfl

theorem select_seg {d : Dom τ} (hd : Valid d) {t : τ} (ht : t ∈ tags d) :
    Dom.select [t] d = .ok (seg t (lo t d) (hi t d)) := by
  obtain ⟨r, h1, h2, h3⟩ := ofDomains_ok (qs := [t]) (ds := [d]) (by simp) (by simpa using hd.1)
    (by intro q hq; rw [List.mem_singleton] at hq; subst hq; exact ownedOnce_singleton ht)
  rw [Dom.select, h1]
  congr 1
  have hg := h3 t (by simp) d (by simp) ht
  obtain ⟨⟨b, e⟩, hb⟩ := get_ok_iff_mem_tags.2 ht
  rw [hb] at hg
  rw [Spec.lo_ok hb, Spec.hi_ok hb, seg, BitVec.ofNat_toNat, BitVec.ofNat_toNat]
  simp only [BitVec.setWidth_eq]
  match r, h2, hg with
  | [(q, v)], h2, hg =>
    simp [tags] at h2
    subst h2
    rw [One.get] at hg
    rw [Res.ok.inj hg]

theorem coordinate_el {u : Uniform τ ℝ} {t : τ} (hr : u.ref = [(t, 0)]) {i : Nat} (hi : i < 2 ^ 63) :
    u.coordinate (el t i) = .ok (u.origin + (i : ℝ) * u.step) := by
  have h : u.ref = el t 0 := hr
  rw [Uniform.coordinate, h, sub_nat t (Nat.zero_le i), Res.ok_bind]
  simp only [vec, Vect.value, Nat.sub_zero, Res.ok_bind, toInt_ofNat hi, Res.pure_eq]
  simp

theorem rlength_seg {u : Uniform τ ℝ} {t : τ} (hr : u.ref = [(t, 0)]) {x n : Nat} (h : x + n < 2 ^ 63)
    (hn : 0 < n) : u.rlength (seg t x (x + n)) = .ok (((n - 1 : Nat) : ℝ) * u.step) := by
  rw [Uniform.rlength, Uniform.rmax, Uniform.rmin, back_nat t (by omega), Res.ok_bind, One.front,
    coordinate_el hr (by omega), Res.ok_bind, coordinate_el hr (by omega), Res.ok_bind, Res.pure_eq]
  congr 1
  have : x + n - 1 = x + (n - 1) := by omega
  rw [this]
  push_cast
  ring

theorem forwardCoef_seg {u : Uniform τ ℝ} {t : τ} (hr : u.ref = [(t, 0)]) {x n : Nat}
    (h : x + n < 2 ^ 63) (hn : 2 ≤ n) :
    forwardCoef u (seg t x (x + n)) = .ok (u.step / √(2 * Real.pi)) := by
  rw [forwardCoef, rlength_seg hr h (by omega), Res.ok_bind, extents_nat t (by omega), Res.ok_bind, vec,
    subInt_nat t (by omega) (by omega), Res.ok_bind]
  simp only [Vect.value, Res.ok_bind, divInt]
  have e : x + n - x - 1 = n - 1 := by omega
  rw [e, if_neg, toInt_ofNat (by omega)]
  · congr 1
    have h0 : ((n - 1 : Nat) : ℝ) ≠ 0 := by exact_mod_cast (by omega : n - 1 ≠ 0)
    have h1 : (((n - 1 : Nat) : Int) : ℝ) = ((n - 1 : Nat) : ℝ) := by norm_cast
    rw [h1, mul_div_assoc, mul_div_assoc, mul_comm, div_mul_cancel₀ _ h0]
  · intro h2
    have := congrArg BitVec.toNat h2
    rw [BitVec.toNat_ofNat, Nat.mod_eq_of_lt (by omega)] at this
    simp at this
    omega

theorem backwardCoef_seg {u : Uniform τ ℝ} {t : τ} (hr : u.ref = [(t, 0)]) (hs : 0 < u.step) {x n : Nat}
    (h : x + n < 2 ^ 63) (hn : 2 ≤ n) :
    backwardCoef u (seg t x (x + n)) = .ok (2 * Real.pi / (n * u.step) / √(2 * Real.pi)) := by
  have hp : 0 < √(2 * Real.pi) := Real.sqrt_pos.2 (by have := Real.pi_pos; linarith)
  have hsq : √(2 * Real.pi) * √(2 * Real.pi) = 2 * Real.pi :=
    Real.mul_self_sqrt (by have := Real.pi_pos; linarith)
  have hn0 : (0 : ℝ) < n := by exact_mod_cast (by omega : 0 < n)
  rw [backwardCoef, forwardCoef_seg hr h hn, Res.ok_bind, extents_nat t (by omega), Res.ok_bind, vec]
  simp only [Vect.value, Res.ok_bind]
  have e : x + n - x = n := by omega
  have h1 : ((n : Int) : ℝ) = (n : ℝ) := by norm_cast
  rw [e, toInt_ofNat (by omega), h1, if_neg (by positivity)]
  congr 1
  rw [div_eq_div_iff (by positivity) (by positivity), one_mul]
  field_simp
  rw [pow_two, hsq]

theorem foldCoef_ok {coef : Uniform τ ℝ → Dom τ → Res ℝ} {u : τ → Uniform τ ℝ} {d : Dom τ}
    {c : τ → ℝ} {ts : List τ} (hne : ts ≠ [])
    (h : ∀ t ∈ ts, ∃ dt, Dom.select [t] d = .ok dt ∧ coef (u t) dt = .ok (c t)) :
    foldCoef coef u d ts = .ok (ts.map c).prod := by
  induction ts with
  | nil => exact absurd rfl hne
  | cons t ts ih =>
    obtain ⟨dt, h1, h2⟩ := h t (by simp)
    cases ts with
    | nil => rw [foldCoef, h1, Res.ok_bind, h2]; simp
    | cons t' ts =>
      rw [foldCoef, h1, Res.ok_bind, h2, Res.ok_bind,
        ih (by simp) (fun q hq => h q (List.mem_cons_of_mem _ hq)), Res.ok_bind, Res.pure_eq]
      · simp only [List.map_cons, List.prod_cons]
      · simp

theorem tags_ne {d : Dom τ} (h : d ≠ []) : tags d ≠ [] := by
  simpa [tags] using h

theorem finish_ok {M : Type} [AddCommGroup M] [Module ℝ M] {u : τ → Uniform τ ℝ} {d : Dom τ}
    (e : Dom τ) (norm : Norm) (h : UniformMesh u (if norm = .full then 2 else 1) d) (out : List Nat → M) :
    (∃ c : ℝ, finish u .forward norm d e out = .ok (fun ks => c • out ks) ∧
      c * libForward (sizes d) (toKokkos norm) = forwardFactor u d norm) ∧
    (∃ c : ℝ, finish u .backward norm e d out = .ok (fun ks => c • out ks) ∧
      c * libBackward (sizes d) (toKokkos norm) = backwardFactor u d norm) := by
  by_cases hf : norm = .full
  · subst hf
    rw [if_pos rfl] at h
    have hseg : ∀ t ∈ tags d, Dom.select [t] d = .ok (seg t (lo t d) (lo t d + len t d)) := by
      intro t ht
      rw [select_seg h.valid ht]
      have := (h.valid.2 t ht).1
      rw [Spec.len]
      congr 2
      omega
    have hlt : ∀ t ∈ tags d, lo t d + len t d < 2 ^ 63 := by
      intro t ht
      have := (h.valid.2 t ht).1
      have := h.top t ht
      rw [Spec.len]
      omega
    constructor
    · refine ⟨((tags d).map (fun t => (u t).step / √(2 * Real.pi))).prod, ?_, ?_⟩
      · rw [finish, if_pos rfl, if_pos rfl, foldCoef_ok (tags_ne h.ne) (c := fun t => (u t).step / √(2 * Real.pi))
          (fun t ht => ⟨_, hseg t ht, forwardCoef_seg (h.ref t ht) (hlt t ht) (h.many t ht)⟩)]
        rfl
      · simp [toKokkos, libForward, forwardFactor]
    · refine ⟨((tags d).map (fun t => 2 * Real.pi / (len t d * (u t).step) / √(2 * Real.pi))).prod, ?_, ?_⟩
      · rw [finish, if_pos rfl, if_neg (by decide), foldCoef_ok (tags_ne h.ne)
          (c := fun t => 2 * Real.pi / (len t d * (u t).step) / √(2 * Real.pi))
          (fun t ht => ⟨_, hseg t ht, backwardCoef_seg (h.ref t ht) (h.step t ht) (hlt t ht) (h.many t ht)⟩)]
        rfl
      · simp [toKokkos, libBackward, backwardFactor]
  · constructor
    · refine ⟨1, by rw [finish, if_neg hf]; simp, ?_⟩
      cases norm <;> simp_all [toKokkos, libForward, forwardFactor, prod_sizes]
    · refine ⟨1, by rw [finish, if_neg hf]; simp, ?_⟩
      cases norm <;> simp_all [toKokkos, libBackward, backwardFactor, prod_sizes]

theorem sizes_length (d : Dom τ) : (sizes d).length = d.length := by simp [sizes, tags]

theorem ranks_ok {a b : Dom τ} (h : a.length = b.length) (hne : a ≠ []) : ranks a b = .ok () := by
  have : a.isEmpty = false := by simpa using hne
  rw [ranks, this]
  simp [h]

theorem sizes_pos {u : τ → Uniform τ ℝ} {m : Nat} {d : Dom τ} (h : UniformMesh u m d) (hm : 0 < m) :
    ∀ n ∈ sizes d, 0 < n := by
  intro n hn
  obtain ⟨t, ht, rfl⟩ := List.mem_map.1 hn
  have := h.many t ht
  omega

/-! ## Transforms -/

/-- `fft` on complex data: the discrete Fourier transform, times the documented factor. -/
theorem C49_fft (F : Library) (u : τ → Uniform τ ℝ) (dx dk : Dom τ) (norm : Norm)
    (hF : Library.Exact F dx.length) (hx : UniformMesh u (if norm = .full then 2 else 1) dx)
    (hk : Valid dk) (hs : sizes dk = sizes dx) (f : List Nat → ℂ) :
    ∃ g, fftC F u dk dx norm f = .ok g ∧ ∀ ks, Within (sizes dx) ks →
      g ks = forwardFactor u dx norm * dft (-1) (sizes dx) f ks := by
  have hl : dx.length = dk.length := by rw [← sizes_length, ← sizes_length, hs]
  obtain ⟨o, ho, ho2⟩ := hF.fftn (toKokkos norm) (sizes dx) f (sizes_length dx)
    (sizes_pos hx (by split_ifs <;> decide))
  obtain ⟨⟨c, hc, hc2⟩, -⟩ := finish_ok dk norm hx o
  refine ⟨fun ks => c • o ks, ?_, ?_⟩
  · rw [fftC, implCC, ranks_ok hl hx.ne, Res.ok_bind, shape_eq hx.valid, Res.ok_bind, shape_eq hk,
      Res.ok_bind, if_pos rfl, axes_eq hx.valid.1, hs, show (tags dx).length = dx.length by simp [tags], ho,
      Res.ok_bind]
    exact hc
  · intro ks hks
    simp only
    rw [ho2 ks hks, ← hc2, Complex.real_smul]
    push_cast
    ring

/-- `ifft` to complex data. -/
theorem C49_ifft (F : Library) (u : τ → Uniform τ ℝ) (dx dk : Dom τ) (norm : Norm)
    (hF : Library.Exact F dx.length) (hx : UniformMesh u (if norm = .full then 2 else 1) dx)
    (hk : Valid dk) (hs : sizes dk = sizes dx) (g : List Nat → ℂ) :
    ∃ f, ifftC F u dx dk norm g = .ok f ∧ ∀ xs, Within (sizes dx) xs →
      f xs = backwardFactor u dx norm * dft 1 (sizes dx) g xs := by
  have hl : dk.length = dx.length := by rw [← sizes_length, ← sizes_length, hs]
  have hne : dk ≠ [] := by
    intro h
    rw [h] at hl
    exact hx.ne (List.length_eq_zero_iff.1 hl.symm)
  obtain ⟨o, ho, ho2⟩ := hF.ifftn (toKokkos norm) (sizes dx) g (sizes_length dx)
    (sizes_pos hx (by split_ifs <;> decide))
  obtain ⟨-, ⟨c, hc, hc2⟩⟩ := finish_ok dk norm hx o
  refine ⟨fun ks => c • o ks, ?_, ?_⟩
  · rw [ifftC, implCC, ranks_ok hl hne, Res.ok_bind, shape_eq hk, Res.ok_bind, shape_eq hx.valid,
      Res.ok_bind, if_neg (by decide), axes_eq hk.1, hs,
      show (tags dk).length = dx.length by rw [← hl]; simp [tags], ho, Res.ok_bind]
    exact hc
  · intro ks hks
    simp only
    rw [ho2 ks hks, ← hc2, Complex.real_smul]
    push_cast
    ring

/-- `fft` on real data: the non-redundant half of the transform. -/
theorem C49_rfft (F : Library) (u : τ → Uniform τ ℝ) (dx dk : Dom τ) (norm : Norm)
    (hF : Library.Exact F dx.length) (hx : UniformMesh u (if norm = .full then 2 else 1) dx)
    (hk : Valid dk) (hs : sizes dk = halfShape (sizes dx)) (hl : dx.length = dk.length)
    (f : List Nat → ℝ) :
    ∃ g, fftR F u dk dx norm f = .ok g ∧ ∀ ks, Within (halfShape (sizes dx)) ks →
      g ks = forwardFactor u dx norm * dft (-1) (sizes dx) (fun xs => f xs) ks := by
  obtain ⟨o, ho, ho2⟩ := hF.rfftn (toKokkos norm) (sizes dx) f (sizes_length dx)
    (sizes_pos hx (by split_ifs <;> decide))
  obtain ⟨⟨c, hc, hc2⟩, -⟩ := finish_ok dk norm hx o
  refine ⟨fun ks => c • o ks, ?_, ?_⟩
  · rw [fftR, implRC, ranks_ok hl hx.ne, Res.ok_bind, shape_eq hx.valid, Res.ok_bind, shape_eq hk,
      Res.ok_bind, show decide (Dir.forward = Dir.forward) = true from rfl, Res.guardAbort_true,
      Res.ok_bind, axes_eq hx.valid.1, hs, show (tags dx).length = dx.length by simp [tags], ho,
      Res.ok_bind]
    exact hc
  · intro ks hks
    simp only
    rw [ho2 ks hks, ← hc2, Complex.real_smul]
    push_cast
    ring

/-- `ifft` to real data, on the non-redundant half of a conjugate symmetric spectrum `X`. -/
theorem C49_irfft (F : Library) (u : τ → Uniform τ ℝ) (dx dk : Dom τ) (norm : Norm)
    (hF : Library.Exact F dx.length) (hx : UniformMesh u (if norm = .full then 2 else 1) dx)
    (hk : Valid dk) (hs : sizes dk = halfShape (sizes dx)) (hl : dx.length = dk.length)
    (g X : List Nat → ℂ) (hX : Hermitian (sizes dx) X)
    (hg : ∀ ks, Within (halfShape (sizes dx)) ks → g ks = X ks) :
    ∃ f, ifftR F u dx dk norm g = .ok f ∧ ∀ xs, Within (sizes dx) xs →
      (f xs : ℂ) = backwardFactor u dx norm * dft 1 (sizes dx) X xs := by
  have hne : dk ≠ [] := by
    intro h
    rw [h] at hl
    exact hx.ne (List.length_eq_zero_iff.1 hl)
  obtain ⟨o, ho, ho2⟩ := hF.irfftn (toKokkos norm) (sizes dx) g X (sizes_length dx)
    (sizes_pos hx (by split_ifs <;> decide)) hX hg
  obtain ⟨-, ⟨c, hc, hc2⟩⟩ := finish_ok dk norm hx o
  refine ⟨fun ks => c • o ks, ?_, ?_⟩
  · rw [ifftR, implCR, ranks_ok hl.symm hne, Res.ok_bind, shape_eq hk, Res.ok_bind, shape_eq hx.valid,
      Res.ok_bind, show decide (Dir.backward = Dir.backward) = true from rfl, Res.guardAbort_true,
      Res.ok_bind, axes_eq hk.1, hs,
      show (tags dk).length = dx.length by rw [hl]; simp [tags], ho, Res.ok_bind]
    exact hc
  · intro ks hks
    simp only
    rw [smul_eq_mul, ← hc2]
    push_cast
    rw [ho2 ks hks]
    ring

theorem factors {u : τ → Uniform τ ℝ} {d : Dom τ} {norm : Norm} (h : UniformMesh u 1 d) :
    forwardFactor u d norm * backwardFactor u d norm * (card d : ℝ) =
      if norm = .off then (card d : ℝ) else 1 := by
  have hc : (0 : ℝ) < card d := by
    have := List.prod_pos (sizes_pos h (by decide))
    exact_mod_cast this
  have hsq : √(card d : ℝ) * √(card d : ℝ) = card d := Real.mul_self_sqrt hc.le
  have hsp : 0 < √(card d : ℝ) := Real.sqrt_pos.2 hc
  cases norm with
  | off => simp [forwardFactor, backwardFactor]
  | forward => simp [forwardFactor, backwardFactor, hc.ne']
  | backward => simp [forwardFactor, backwardFactor, hc.ne']
  | ortho =>
    simp only [forwardFactor, backwardFactor, reduceCtorEq, if_false]
    rw [one_div_mul_one_div, hsq]
    field_simp
  | full =>
    simp only [forwardFactor, backwardFactor, reduceCtorEq, if_false]
    have hp : 0 < √(2 * Real.pi) := Real.sqrt_pos.2 (by have := Real.pi_pos; linarith)
    have hpi : √(2 * Real.pi) * √(2 * Real.pi) = 2 * Real.pi :=
      Real.mul_self_sqrt (by have := Real.pi_pos; linarith)
    have key : ∀ ts : List τ, (∀ t ∈ ts, t ∈ tags d) →
        (ts.map (fun t => (u t).step / √(2 * Real.pi))).prod *
          (ts.map (fun t => 2 * Real.pi / (len t d * (u t).step) / √(2 * Real.pi))).prod *
          ((ts.map (fun t => len t d)).prod : ℕ) = 1 := by
      intro ts
      induction ts with
      | nil => simp
      | cons t ts ih =>
        intro ht
        have ih := ih (fun q hq => ht q (List.mem_cons_of_mem _ hq))
        have h1 := h.step t (ht t (by simp))
        have h2 : (0 : ℝ) < len t d := by exact_mod_cast h.many t (ht t (by simp))
        simp only [List.map_cons, List.prod_cons]
        have e : (u t).step / √(2 * Real.pi) * (2 * Real.pi / (len t d * (u t).step) / √(2 * Real.pi)) *
            (len t d : ℝ) = 1 := by
          have e' : ∀ w : ℝ, 0 < w → (u t).step / w * (w * w / (len t d * (u t).step) / w) *
              (len t d : ℝ) = 1 := by
            intro w hw
            field_simp
          have := e' _ hp
          rwa [hpi] at this
        rw [Nat.cast_mul]
        have lem : ∀ a b c A B C : ℝ, a * b * c = 1 → A * B * C = 1 → a * A * (b * B) * (c * C) = 1 := by
          intro a b c A B C h1 h2
          linear_combination h1 * (A * B * C) + h2
        exact lem _ _ _ _ _ _ e ih
    exact key (tags d) (fun _ h => h)

theorem UniformMesh.one {u : τ → Uniform τ ℝ} {d : Dom τ} {norm : Norm}
    (h : UniformMesh u (if norm = .full then 2 else 1) d) : UniformMesh u 1 d :=
  ⟨h.valid, h.ne, h.ref, h.step, h.top, fun t ht => by
    have := h.many t ht
    split_ifs at this <;> omega⟩

/-- Complex data: `ifft` after `fft` with the same normalisation multiplies by the number of points
for `OFF` and gives the data back otherwise. -/
theorem C49_inverse (F : Library) (u : τ → Uniform τ ℝ) (dx dk : Dom τ) (norm : Norm)
    (hF : Library.Exact F dx.length) (hx : UniformMesh u (if norm = .full then 2 else 1) dx)
    (hk : Valid dk) (hs : sizes dk = sizes dx) (f : List Nat → ℂ) :
    ∃ r, (do let g ← fftC F u dk dx norm f; ifftC F u dx dk norm g) = .ok r ∧
      ∀ xs, Within (sizes dx) xs → r xs = (if norm = .off then (card dx : ℂ) else 1) * f xs := by
  obtain ⟨g, hg, hg2⟩ := C49_fft F u dx dk norm hF hx hk hs f
  obtain ⟨r, hr, hr2⟩ := C49_ifft F u dx dk norm hF hx hk hs g
  refine ⟨r, by rw [hg, Res.ok_bind, hr], ?_⟩
  intro xs hxs
  have e := dft_dft (s := -1) (Or.inr rfl) (sizes dx) f hxs
  rw [_root_.neg_neg] at e
  have c := congrArg (fun r : ℝ => (r : ℂ)) (factors (norm := norm) hx.one)
  push_cast at c
  rw [hr2 xs hxs, dft_congr hg2, dft_mul, e, prod_sizes, ← mul_assoc, ← mul_assoc,
    mul_comm (backwardFactor u dx norm : ℂ), c]
  split_ifs <;> rfl

/-- Real data: same statement, the spectrum being stored on half of the last dimension. -/
theorem C49_inverse_real (F : Library) (u : τ → Uniform τ ℝ) (dx dk : Dom τ) (norm : Norm)
    (hF : Library.Exact F dx.length) (hx : UniformMesh u (if norm = .full then 2 else 1) dx)
    (hk : Valid dk) (hs : sizes dk = halfShape (sizes dx)) (hl : dx.length = dk.length)
    (f : List Nat → ℝ) :
    ∃ r, (do let g ← fftR F u dk dx norm f; ifftR F u dx dk norm g) = .ok r ∧
      ∀ xs, Within (sizes dx) xs → r xs = (if norm = .off then (card dx : ℝ) else 1) * f xs := by
  obtain ⟨g, hg, hg2⟩ := C49_rfft F u dx dk norm hF hx hk hs hl f
  obtain ⟨r, hr, hr2⟩ := C49_irfft F u dx dk norm hF hx hk hs hl g _
    (hermitian_mul (hermitian_dft (s := -1) (Or.inr rfl) (sizes dx) f) (forwardFactor u dx norm)) hg2
  refine ⟨r, by rw [hg, Res.ok_bind, hr], ?_⟩
  intro xs hxs
  have e := dft_dft (s := -1) (Or.inr rfl) (sizes dx) (fun xs => (f xs : ℂ)) hxs
  rw [_root_.neg_neg] at e
  have h := hr2 xs hxs
  rw [dft_mul, e, prod_sizes, ← mul_assoc, ← mul_assoc, mul_comm (backwardFactor u dx norm : ℂ)] at h
  have h' : r xs = forwardFactor u dx norm * backwardFactor u dx norm * (card dx : ℝ) * f xs := by
    exact_mod_cast h
  rw [h', factors hx.one]

/-! ## The Fourier mesh -/

theorem halveLast_ok {v : Vect τ} (hne : v ≠ []) (hv : ∀ p ∈ v, p.2.toNat < 2 ^ 63) :
    ∃ w, halveLast v = .ok w ∧ tags w = tags v ∧
      w.map (fun p => p.2.toNat) = halfShape (v.map (fun p => p.2.toNat)) ∧
      ∀ p ∈ w, p.2.toNat < 2 ^ 63 := by
  induction v with
  | nil => exact absurd rfl hne
  | cons p v ih =>
    cases v with
    | nil =>
      obtain ⟨t, n⟩ := p
      have hn : n.toNat < 2 ^ 63 := hv (t, n) (by simp)
      have e : n = BitVec.ofNat 64 n.toNat := by simp
      have hd : SDom.sDiv n 2 = .ok (BitVec.ofNat 64 (n.toNat / 2)) := by
        rw [SDom.sDiv, if_neg (by decide), signedRes]
        have h2 : (2 : I64).toInt = 2 := by decide
        have h3 : n.toInt = n.toNat := by rw [BitVec.toInt_eq_toNat_cond]; split <;> omega
        rw [h2, h3]
        have h4 : Int.tdiv (n.toNat : Int) 2 = ((n.toNat / 2 : Nat) : Int) := by
          rw [Int.tdiv_eq_ediv_of_nonneg (by omega)]; omega
        rw [h4, if_pos ⟨by omega, by omega⟩, BitVec.ofInt_natCast]
      refine ⟨[(t, BitVec.ofNat 64 (n.toNat / 2 + 1))], ?_, rfl, ?_, ?_⟩
      · rw [halveLast, hd, Res.ok_bind, show (1 : I64) = BitVec.ofNat 64 1 from rfl,
          sAdd_nat (by omega), Res.ok_bind, Res.pure_eq]
      · simp only [List.map_cons, List.map_nil, halfShape, BitVec.toNat_ofNat]
        rw [Nat.mod_eq_of_lt (by omega)]
      · intro p hp
        rw [List.mem_singleton] at hp
        subst hp
        simp only [BitVec.toNat_ofNat]
        omega
    | cons p' v =>
      obtain ⟨w, h1, h2, h3, h4⟩ := ih (by simp) (fun q hq => hv q (List.mem_cons_of_mem _ hq))
      refine ⟨p :: w, ?_, ?_, ?_, ?_⟩
      · rw [halveLast, h1, Res.ok_bind, Res.pure_eq]
        simp
      · simp only [tags, List.map_cons] at h2 ⊢
        rw [h2]
      · rw [List.map_cons, h3]
        rfl
      · intro q hq
        rcases List.mem_cons.1 hq with rfl | hq
        · exact hv _ (by simp)
        · exact h4 q hq

/-- `fourier_mesh` has the requested dimensions, starts at zero, and has as many modes as the mesh
has points along each dimension, except for `n / 2 + 1` modes along the last dimension when the
transform is not from complex to complex. -/
theorem C49_mesh (fts : List τ) (x : Dom τ) (c2c : Bool) (hx : Valid x) (hne : x ≠ [])
    (hf : fts.Nodup) (hl : fts.length = x.length) :
    ∃ k, fourierMesh fts x c2c = .ok k ∧ Valid k ∧ tags k = fts ∧ (∀ t ∈ fts, lo t k = 0) ∧
      sizes k = if c2c then sizes x else halfShape (sizes x) := by
  set e : Vect τ := x.map (fun p => (p.1, p.2.2 - p.2.1)) with he
  have hex : Dom.extents x = .ok e := extents_eq x hx.1
  have hte : tags e = tags x := tags_map_snd (fun p : U64 × U64 => p.2 - p.1) x
  have hse : e.map (fun p => p.2.toNat) = sizes x := by
    have := shape_eq hx
    rw [shape, hex, Res.ok_bind, Res.pure_eq] at this
    exact Res.ok.inj this
  have hsm : ∀ p ∈ e, p.2.toNat < 2 ^ 63 := by
    intro p hp
    have h1 : p.2.toNat ∈ sizes x := by rw [← hse]; exact List.mem_map_of_mem (f := fun p => p.2.toNat) hp
    obtain ⟨t, ht, h2⟩ := List.mem_map.1 h1
    rw [← h2]
    exact (hx.2 t ht).2
  have hene : e ≠ [] := by
    intro h
    rw [h] at hte
    exact tags_ne hne hte.symm
  obtain ⟨w, hw, htw, hsw, hlw⟩ : ∃ w : Vect τ, meshExtents c2c e = .ok w ∧
      tags w = tags x ∧ w.map (fun p => p.2.toNat) = (if c2c then sizes x else halfShape (sizes x)) ∧
      ∀ p ∈ w, p.2.toNat < 2 ^ 63 := by
    cases c2c with
    | true => exact ⟨e, rfl, hte, hse, hsm⟩
    | false =>
      obtain ⟨w, h1, h2, h3, h4⟩ := halveLast_ok hene hsm
      exact ⟨w, h1, h2.trans hte, by rw [h3, hse]; rfl, h4⟩
  set val : τ → Nat := fun q => match Tup.get q w with | .ok v => v.toNat | _ => 0 with hval
  have hval2 : ∀ q ∈ tags x, Tup.get q w = .ok (BitVec.ofNat 64 (val q)) ∧ val q < 2 ^ 63 := by
    intro q hq
    obtain ⟨v, hv⟩ := get_ok_iff_mem_tags.2 (htw ▸ hq)
    rw [hval]
    simp only [hv]
    exact ⟨by simp, hlw _ (get_mem hv)⟩
  have hvw : (tags x).map val = w.map (fun p => p.2.toNat) := by
    rw [← htw, tags, List.map_map]
    apply List.map_congr_left
    rintro ⟨q, v⟩ hp
    have hq : q ∈ tags w := List.mem_map_of_mem (f := Prod.fst) hp
    obtain ⟨v', hv⟩ := get_ok_iff_mem_tags.2 hq
    have hn : (List.map Prod.fst w).Nodup := by
      have : (tags w).Nodup := htw ▸ hx.1
      exact this
    have := List.inj_on_of_nodup_map hn (get_mem hv) hp rfl
    rw [(Prod.mk.inj this).2] at hv
    simp only [Function.comp, hval, hv]
  set l := fts.zip (tags x) with hldef
  have hl' : fts.length = (tags x).length := by simpa [tags] using hl
  have hl1 : l.map Prod.fst = fts := List.map_fst_zip (by omega)
  have hl2 : l.map Prod.snd = tags x := List.map_snd_zip (by omega)
  have hmap : l.mapM (fun p => do
      let n ← Tup.get p.2 w
      Dom.ofSize [(p.1, (0 : U64))] [(p.1, n)]) = .ok (l.map (fun p => seg p.1 0 (val p.2))) := by
    refine mapM_ok ?_
    intro p hp
    have : p.2 ∈ tags x := by rw [← hl2]; exact List.mem_map_of_mem hp
    rw [(hval2 _ this).1, Res.ok_bind]
    have h := ofSize_nat p.1 0 (val p.2)
    rw [Nat.zero_add] at h
    exact h
  have hfl : (l.map (fun p => seg p.1 0 (val p.2))).flatMap tags = fts := by
    rw [← hl1, List.flatMap_map]
    show l.flatMap (fun p => [p.1]) = _
    rw [List.map_eq_flatMap]
  obtain ⟨k, hk1, hk2, hk3⟩ := ofDomains_ok (qs := fts) (ds := l.map (fun p => seg p.1 0 (val p.2))) hf
    (by
      intro d hd
      obtain ⟨p, _, rfl⟩ := List.mem_map.1 hd
      simp [seg, tags])
    (ownedOnce_of_perm hf (by rw [hfl]))
  have hget : ∀ p ∈ l, Tup.get p.1 k = .ok (0, BitVec.ofNat 64 (val p.2)) := by
    intro p hp
    rw [hk3 p.1 (by rw [← hl1]; exact List.mem_map_of_mem hp) _
      (List.mem_map_of_mem (f := fun p => seg p.1 0 (val p.2)) hp) (by simp [seg, tags])]
    exact One.get _ _
  have hlo : ∀ p ∈ l, lo p.1 k = 0 ∧ hi p.1 k = val p.2 ∧ len p.1 k = val p.2 ∧ val p.2 < 2 ^ 63 := by
    intro p hp
    have h1 := (hval2 p.2 (by rw [← hl2]; exact List.mem_map_of_mem hp)).2
    have h2 : hi p.1 k = val p.2 := by
      rw [Spec.hi_ok (hget p hp), BitVec.toNat_ofNat, Nat.mod_eq_of_lt (by omega)]
    have h3 : lo p.1 k = 0 := Spec.lo_ok (hget p hp)
    exact ⟨h3, h2, by rw [Spec.len, h2, h3]; rfl, h1⟩
  have hin : ∀ t ∈ fts, ∃ p ∈ l, p.1 = t := by
    intro t ht
    rw [← hl1] at ht
    obtain ⟨p, hp, rfl⟩ := List.mem_map.1 ht
    exact ⟨p, hp, rfl⟩
  refine ⟨k, ?_, ⟨by rw [hk2]; exact hf, ?_⟩, hk2, ?_, ?_⟩
  · rw [fourierMesh, hex, Res.ok_bind, show decide (fts.length = x.length) = true by simpa using hl]
    rw [show Res.guardIll true = .ok () from rfl, Res.ok_bind, hw, Res.ok_bind, hmap, Res.ok_bind, hk1]
  · intro t ht
    rw [hk2] at ht
    obtain ⟨p, hp, rfl⟩ := hin t ht
    obtain ⟨h1, h2, h3, h4⟩ := hlo p hp
    omega
  · intro t ht
    obtain ⟨p, hp, rfl⟩ := hin t ht
    exact (hlo p hp).1
  · rw [← hsw, ← hvw, ← hl2, sizes, hk2, List.map_map]
    conv_lhs => rw [← hl1]
    rw [List.map_map]
    apply List.map_congr_left
    intro p hp
    exact (hlo p hp).2.2.1

/-! ## Wave numbers -/

theorem seg_of_valid {t : τ} {x : Dom τ} (hx : Valid x) (ht : tags x = [t]) :
    x = seg t (lo t x) (lo t x + len t x) := by
  match x, ht with
  | [(q, (b, e))], ht =>
    have hq : q = t := by simpa [tags] using ht
    subst hq
    have h1 := (hx.2 q (by simp [tags])).1
    have h2 : Tup.get q [(q, (b, e))] = .ok (b, e) := One.get _ _
    rw [Spec.len, Spec.lo_ok h2, Spec.hi_ok h2] at *
    rw [seg, show b.toNat + (e.toNat - b.toNat) = e.toNat by omega]
    simp

theorem sMul_nat {a b : Nat} (h : a * b < 2 ^ 63) (ha : a < 2 ^ 63) (hb : b < 2 ^ 63) :
    sMul (BitVec.ofNat 64 a) (BitVec.ofNat 64 b) = .ok (BitVec.ofNat 64 (a * b)) := by
  have e : (a : Int) * b = ((a * b : Nat) : Int) := by push_cast; rfl
  rw [sMul, toInt_ofNat ha, toInt_ofNat hb, signedRes, e, if_pos ⟨by omega, by omega⟩,
    BitVec.ofInt_natCast]

/-- `init_fourier_space` on a mesh of `n` points at distance `dx`, from 2 to `2^31` points: mode `k`
has the wave number `2 * pi * m / (n * dx)`, where `m` is the integer congruent to `k` modulo `n`
between `-n / 2` (included) and `n / 2` (excluded). -/
theorem C49_wave_numbers_partial (ft t : τ) (u : Uniform τ ℝ) (x : Dom τ) (hx : Valid x)
    (ht : tags x = [t]) (hr : u.ref = [(t, 0)]) (hs : 0 < u.step) (htop : hi t x < 2 ^ 63)
    (h2 : 2 ≤ len t x) (hn : len t x ≤ 2 ^ 31) :
    ∃ p, initFourierSpace ft t u x = .ok p ∧ p.ref = [(ft, 0)] ∧ p.period.toNat = len t x ∧
      ∀ k, k < len t x → ∃ m : Int,
        p.coordinate [(ft, BitVec.ofNat 64 k)] = .ok (2 * Real.pi * m / (len t x * u.step)) ∧
        -(len t x : Int) ≤ 2 * m ∧ 2 * m < len t x ∧ (len t x : Int) ∣ k - m := by
  have hseg := seg_of_valid hx ht
  have hle := (hx.2 t (by rw [ht]; simp)).1
  have hhi : lo t x + len t x = hi t x := by rw [Spec.len]; omega
  generalize lo t x = b at *
  generalize len t x = n at *
  have hn0 : (0 : ℝ) < n := by exact_mod_cast (by omega : 0 < n)
  have hn1 : (0 : ℝ) < ((n - 1 : Nat) : ℝ) := by exact_mod_cast (by omega : 0 < n - 1)
  have hq : 2 * (n - 1) * (n - 1) < 2 ^ 63 := by
    have h3 : n - 1 ≤ 2 ^ 31 - 1 := by omega
    have h4 : 2 * (n - 1) * (n - 1) ≤ 2 * (2 ^ 31 - 1) * (2 ^ 31 - 1) :=
      Nat.mul_le_mul (Nat.mul_le_mul_left _ h3) h3
    omega
  set B : ℝ := ((2 * (n - 1) * (n - 1) : Nat) : ℝ) / ((n : ℝ) * (((n - 1 : Nat) : ℝ) * u.step)) * Real.pi
    with hB
  have hBe : B = 2 * Real.pi / (n * u.step) * ((n - 1 : Nat) : ℝ) := by
    rw [hB]
    push_cast
    field_simp
  have hB0 : 0 < B := by rw [hBe]; have := Real.pi_pos; positivity
  obtain ⟨p, d, hp, ho, hst, _, hpe, hre, _⟩ := C29_init ft 0 B hB0 n n (by omega) (by omega) (by omega) (by omega)
  have hstep : p.step = 2 * Real.pi / (n * u.step) := by
    rw [sub_zero, hBe] at hst
    exact mul_right_cancel₀ hn1.ne' hst
  refine ⟨p, ?_, hre, hpe, ?_⟩
  · rw [initFourierSpace, hseg, extents_nat t (by omega), Res.ok_bind, Nat.add_sub_cancel_left, vec, One.get,
      Res.ok_bind, rlength_seg hr (by omega) (by omega), Res.ok_bind,
      show (1 : I64) = BitVec.ofNat 64 1 from rfl, sSub_nat (by omega) (by omega), Res.ok_bind,
      show (2 : I64) = BitVec.ofNat 64 2 from rfl, sMul_nat (by omega) (by omega) (by omega), Res.ok_bind,
      sMul_nat hq (by omega) (by omega), Res.ok_bind, toInt_ofNat hq, toInt_ofNat (by omega)]
    rw [show (((2 * (n - 1) * (n - 1) : Nat) : Int) : ℝ) / (((n : Int) : ℝ) * (((n - 1 : Nat) : ℝ) * u.step)) *
      Real.pi = B by rw [hB]; norm_cast, hp]
    rfl
  · intro k hk
    obtain ⟨m, h3, h4, h5, h6⟩ := C29_coordinate_partial p ft hre n k hpe (by omega) hn (by omega)
    refine ⟨m, ?_, by omega, by omega, h6⟩
    rw [h3, ho, hstep]
    congr 1
    ring

/-- Beyond `2^31` points the bound of the window is computed with a signed overflow. -/
theorem C49_space_overflow (ft t : τ) (u : Uniform τ ℝ) (x : Dom τ) (hx : Valid x)
    (ht : tags x = [t]) (hr : u.ref = [(t, 0)]) (htop : hi t x < 2 ^ 63) (hn : 2 ^ 31 < len t x) :
    initFourierSpace ft t u x = .ub := by
  have hseg := seg_of_valid hx ht
  have hle := (hx.2 t (by rw [ht]; simp)).1
  have hhi : lo t x + len t x = hi t x := by rw [Spec.len]; omega
  generalize lo t x = b at *
  generalize len t x = n at *
  rw [initFourierSpace, hseg, extents_nat t (by omega), Res.ok_bind, Nat.add_sub_cancel_left, vec, One.get,
    Res.ok_bind, rlength_seg hr (by omega) (by omega), Res.ok_bind,
    show (1 : I64) = BitVec.ofNat 64 1 from rfl, sSub_nat (by omega) (by omega), Res.ok_bind,
    show (2 : I64) = BitVec.ofNat 64 2 from rfl]
  have h2 : (2 : Int) ^ 31 ≤ ((n - 1 : Nat) : Int) := by omega
  by_cases h : 2 * (n - 1) < 2 ^ 63
  · rw [sMul_nat h (by omega) (by omega), Res.ok_bind, sMul, toInt_ofNat h, toInt_ofNat (by omega), signedRes,
      if_neg]
    · rfl
    · intro h3
      have h5 : ((2 * (n - 1) : Nat) : Int) * ((n - 1 : Nat) : Int) ≥ (2 * 2 ^ 31) * 2 ^ 31 := by
        have h6 : ((2 * (n - 1) : Nat) : Int) ≥ 2 * 2 ^ 31 := by omega
        exact mul_le_mul h6 h2 (by norm_num) (by omega)
      omega
  · rw [sMul, toInt_ofNat (by omega), toInt_ofNat (by omega), signedRes, if_neg]
    · rfl
    · intro h3
      omega

/-- A mesh with at most one point has no Fourier space: `init` stops at an assertion. -/
theorem C49_space_one_point (ft t : τ) (u : Uniform τ ℝ) (x : Dom τ) (hx : Valid x)
    (ht : tags x = [t]) (hr : u.ref = [(t, 0)]) (htop : hi t x < 2 ^ 63) (hn : len t x = 1) :
    initFourierSpace ft t u x = .abort := by
  have hseg := seg_of_valid hx ht
  have hle := (hx.2 t (by rw [ht]; simp)).1
  have hhi : lo t x + len t x = hi t x := by rw [Spec.len]; omega
  generalize lo t x = b at *
  rw [hn] at hseg hhi
  rw [initFourierSpace, hseg, extents_nat t (by omega), Res.ok_bind, Nat.add_sub_cancel_left, vec, One.get,
    Res.ok_bind, rlength_seg hr (by omega) (by omega), Res.ok_bind,
    show (1 : I64) = BitVec.ofNat 64 1 from rfl, sSub_nat (by omega) (by omega), Res.ok_bind,
    show (2 : I64) = BitVec.ofNat 64 2 from rfl, sMul_nat (by omega) (by omega) (by omega), Res.ok_bind,
    sMul_nat (by omega) (by omega) (by omega), Res.ok_bind,
    C29_requires ft _ _ _ _ (Or.inr (Or.inl (by decide)))]
  rfl

/-- The normalisation `FULL` divides by zero on a mesh with one point along some dimension, although
the transform itself is defined: stated here in one dimension. -/
theorem C49_full_one_point (F : Library) (u : τ → Uniform τ ℝ) (t ft : τ) (dx dk : Dom τ)
    (hF : Library.Exact F 1) (hx : UniformMesh u 1 dx) (ht : tags dx = [t]) (hn : len t dx = 1)
    (hk : Valid dk) (hkt : tags dk = [ft]) (hs : sizes dk = sizes dx) (f : List Nat → ℂ) :
    fftC F u dk dx .full f = .ub := by
  have hlx : dx.length = 1 := by rw [← length_tags, ht]; rfl
  have hlk : dk.length = 1 := by rw [← length_tags, hkt]; rfl
  obtain ⟨o, ho, -⟩ := hF.fftn (toKokkos .full) (sizes dx) f (by rw [sizes_length, hlx])
    (sizes_pos hx (by decide))
  have htx : t ∈ tags dx := by rw [ht]; simp
  have hle := (hx.valid.2 t htx).1
  have htop := hx.top t htx
  have hsel := select_seg hx.valid htx
  have hhi : hi t dx = lo t dx + 1 := by rw [Spec.len] at hn; omega
  rw [hhi] at hsel
  have hc : forwardCoef (u t) (seg t (lo t dx) (lo t dx + 1)) = .ub := by
    rw [forwardCoef, rlength_seg (hx.ref t htx) (by omega) (by omega), Res.ok_bind, extents_nat t (by omega),
      Res.ok_bind, Nat.add_sub_cancel_left, vec, subInt_nat t (by omega) (by omega), Res.ok_bind]
    simp [Vect.value, divInt]
  rw [fftC, implCC, ranks_ok (by rw [hlx, hlk]) hx.ne, Res.ok_bind, shape_eq hx.valid, Res.ok_bind,
    shape_eq hk, Res.ok_bind, if_pos rfl, axes_eq hx.valid.1, hs, show (tags dx).length = 1 by rw [ht]; rfl, ho,
    Res.ok_bind]
  show finish u .forward .full dx dk o = _
  rw [finish, if_pos rfl, if_pos rfl, ht, foldCoef, hsel, Res.ok_bind, hc]
  rfl

/-! ## The hypotheses can be met -/

/-- Completion of the non-redundant half of a spectrum. -/
noncomputable def complete (ns : List Nat) (g : List Nat → ℂ) (ks : List Nat) : ℂ :=
  open Classical in if Within (halfShape ns) ks then g ks else (starRingEnd ℂ) (g (neg ns ks))

/-- A library that meets the contract at all ranks. -/
noncomputable def exactLibrary : Library where
  fftn := fun _ norm ns _ f => .ok (fun ks => libForward ns norm * dft (-1) ns f ks)
  ifftn := fun _ norm ns _ f => .ok (fun xs => libBackward ns norm * dft 1 ns f xs)
  rfftn := fun _ norm ns _ f => .ok (fun ks => libForward ns norm * dft (-1) ns (fun xs => f xs) ks)
  irfftn := fun _ norm _ ns g => .ok (fun xs => (libBackward ns norm * dft 1 ns (complete ns g) xs).re)

theorem exactLibrary_exact (r : Nat) : Library.Exact exactLibrary r where
  fftn := fun _ _ _ _ _ => ⟨_, rfl, fun _ _ => rfl⟩
  ifftn := fun _ _ _ _ _ => ⟨_, rfl, fun _ _ => rfl⟩
  rfftn := fun _ _ _ _ _ => ⟨_, rfl, fun _ _ => rfl⟩
  irfftn := by
    intro norm ns g X _ _ hX hg
    refine ⟨_, rfl, ?_⟩
    intro xs hxs
    have hc : ∀ ks, Within ns ks → complete ns g ks = X ks := by
      intro ks hks
      rw [complete]
      split_ifs with h
      · exact hg ks h
      · have h2 := (half_or_neg hks).resolve_left h
        rw [hg _ h2, hX ks hks, Complex.conj_conj]
    rw [dft_congr hc]
    have hr := dft_hermitian (s := 1) (Or.inl rfl) hX hxs
    obtain ⟨a, ha⟩ := Complex.conj_eq_iff_real.1 hr
    rw [ha]
    norm_cast

/-- A mesh of 4 by 3 points. -/
theorem example_mesh : UniformMesh (fun t : Char => ⟨(1 : ℝ), 1 / 2, [(t, 0)]⟩) 2 [('x', (0, 4)), ('y', (5, 8))] where
  valid := ⟨by decide, by
    intro q hq
    simp only [tags, List.map_cons, List.map_nil, List.mem_cons, List.not_mem_nil, or_false] at hq
    rcases hq with rfl | rfl <;> decide⟩
  ne := by simp
  ref := fun _ _ => rfl
  step := fun _ _ => by norm_num
  top := by
    intro q hq
    simp only [tags, List.map_cons, List.map_nil, List.mem_cons, List.not_mem_nil, or_false] at hq
    rcases hq with rfl | rfl <;> decide
  many := by
    intro q hq
    simp only [tags, List.map_cons, List.map_nil, List.mem_cons, List.not_mem_nil, or_false] at hq
    rcases hq with rfl | rfl <;> decide

/-- Its spectrum has 4 by 2 modes for real data, and the real transforms with the normalisation
`FULL` are inverse of each other. -/
example : fourierMesh ['u', 'v'] [('x', (0, 4)), ('y', (5, 8))] false =
      .ok [('u', (0, 4)), ('v', (0, 2))] ∧
    ∀ f : List Nat → ℝ, ∃ r, (do
        let g ← fftR exactLibrary (fun t : Char => ⟨(1 : ℝ), 1 / 2, [(t, 0)]⟩)
          [('u', (0, 4)), ('v', (0, 2))] [('x', (0, 4)), ('y', (5, 8))] .full f
        ifftR exactLibrary (fun t : Char => ⟨(1 : ℝ), 1 / 2, [(t, 0)]⟩)
          [('x', (0, 4)), ('y', (5, 8))] [('u', (0, 4)), ('v', (0, 2))] .full g) = .ok r ∧
      r [3, 2] = f [3, 2] := by
  refine ⟨by decide +kernel, fun f => ?_⟩
  obtain ⟨r, h1, h2⟩ := C49_inverse_real exactLibrary _ [('x', (0, 4)), ('y', (5, 8))]
    [('u', (0, 4)), ('v', (0, 2))] .full (exactLibrary_exact 2) example_mesh
    ⟨by decide, by
      intro q hq
      simp only [tags, List.map_cons, List.map_nil, List.mem_cons, List.not_mem_nil, or_false] at hq
      rcases hq with rfl | rfl <;> decide⟩ (by decide) rfl f
  refine ⟨r, h1, ?_⟩
  have := h2 [3, 2] (by
    rw [show sizes ([('x', (0, 4)), ('y', (5, 8))] : Dom Char) = [4, 3] by decide]
    exact .cons (by decide) (.cons (by decide) .nil))
  simpa using this

/-- Four points at distance one half: the modes are 0, pi, -2 pi and -pi. -/
example : ∃ p, initFourierSpace 'u' 'x' ⟨(1 : ℝ), 1 / 2, [('x', 0)]⟩ [('x', (0, 4))] = .ok p ∧
    p.coordinate [('u', 2)] = .ok (-(2 * Real.pi)) := by
  obtain ⟨p, h1, h2, h3, h4⟩ := C49_wave_numbers_partial 'u' 'x' ⟨(1 : ℝ), 1 / 2, [('x', 0)]⟩ [('x', (0, 4))]
    ⟨by decide, by
      intro q hq
      simp only [tags, List.map_cons, List.map_nil, List.mem_cons, List.not_mem_nil, or_false] at hq
      subst hq; decide⟩ rfl rfl (by norm_num) (by decide) (by decide) (by decide)
  obtain ⟨m, h5, h6, h7, h8⟩ := h4 2 (by decide)
  refine ⟨p, h1, ?_⟩
  have hl : len 'x' ([('x', (0, 4))] : Dom Char) = 4 := by decide
  rw [hl] at h5 h6 h7 h8
  have hm : m = -2 := by omega
  subst hm
  rw [show ((2 : U64)) = BitVec.ofNat 64 2 from rfl, h5]
  congr 1
  push_cast
  ring

end DDC.Props
