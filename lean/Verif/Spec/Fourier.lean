import Verif.Model.FFT
import Verif.Lemmas.Radix
import Mathlib.Analysis.SpecialFunctions.Complex.Circle

/-!
# Specification of discrete Fourier transforms

The discrete Fourier transform as a sum over a box, and the contract of the external library.
-/

namespace DDC.Spec

open scoped ComplexConjugate

/-- Sum over the box of extents `ns`. -/
noncomputable def boxSum : List Nat → (List Nat → ℂ) → ℂ
  | [], f => f []
  | n :: ns, f => ∑ i ∈ Finset.range n, boxSum ns (fun is => f (i :: is))

/-- `exp(s * 2 * pi * i * (k_1 x_1 / n_1 + ... + k_r x_r / n_r))`, for `s = 1` or `s = -1`. -/
noncomputable def wave (s : ℝ) : List Nat → List Nat → List Nat → ℂ
  | n :: ns, k :: ks, x :: xs =>
    Complex.exp ((s * (2 * Real.pi * k * x / n) : ℝ) * Complex.I) * wave s ns ks xs
  | _, _, _ => 1

/-- The discrete Fourier transform without normalisation, with sign `s`. -/
noncomputable def dft (s : ℝ) (ns : List Nat) (f : List Nat → ℂ) (ks : List Nat) : ℂ :=
  boxSum ns (fun xs => wave s ns ks xs * f xs)

/-- The opposite of a multi-index modulo the extents. -/
def neg : List Nat → List Nat → List Nat
  | n :: ns, k :: ks => (n - k) % n :: neg ns ks
  | _, _ => []

/-- Conjugate symmetry of a spectrum. -/
def Hermitian (ns : List Nat) (X : List Nat → ℂ) : Prop :=
  ∀ ks, Within ns ks → X (neg ns ks) = conj (X ks)

/-- Extents of the spectrum of real data. -/
def halfShape : List Nat → List Nat
  | [] => []
  | [n] => [n / 2 + 1]
  | n :: ns => n :: halfShape ns

open FFT in
/-- Factor applied by the library to forward transforms. -/
noncomputable def libForward (ns : List Nat) : KNorm → ℝ
  | .none => 1
  | .forward => 1 / (ns.prod : ℝ)
  | .backward => 1
  | .ortho => 1 / √(ns.prod : ℝ)

open FFT in
/-- Factor applied by the library to backward transforms. -/
noncomputable def libBackward (ns : List Nat) : KNorm → ℝ
  | .none => 1
  | .forward => 1
  | .backward => 1 / (ns.prod : ℝ)
  | .ortho => 1 / √(ns.prod : ℝ)

open FFT in
/-- The contract of the library for arrays of rank `r` transformed along all their axes, taken in
order, with no empty extent: it computes the exact transforms.  The transform to real data is only
specified on spectra that are the non-redundant half of a conjugate symmetric array. -/
structure Library.Exact (F : Library) (r : Nat) : Prop where
  fftn : ∀ norm ns f, ns.length = r → (∀ n ∈ ns, 0 < n) →
    ∃ g, F.fftn (List.range r) norm ns ns f = .ok g ∧
      ∀ ks, Within ns ks → g ks = libForward ns norm * dft (-1) ns f ks
  ifftn : ∀ norm ns f, ns.length = r → (∀ n ∈ ns, 0 < n) →
    ∃ g, F.ifftn (List.range r) norm ns ns f = .ok g ∧
      ∀ xs, Within ns xs → g xs = libBackward ns norm * dft 1 ns f xs
  rfftn : ∀ norm ns (f : List Nat → ℝ), ns.length = r → (∀ n ∈ ns, 0 < n) →
    ∃ g, F.rfftn (List.range r) norm ns (halfShape ns) f = .ok g ∧
      ∀ ks, Within (halfShape ns) ks → g ks = libForward ns norm * dft (-1) ns (fun xs => f xs) ks
  irfftn : ∀ norm ns (g X : List Nat → ℂ), ns.length = r → (∀ n ∈ ns, 0 < n) → Hermitian ns X →
    (∀ ks, Within (halfShape ns) ks → g ks = X ks) →
    ∃ f, F.irfftn (List.range r) norm (halfShape ns) ns g = .ok f ∧
      ∀ xs, Within ns xs → (f xs : ℂ) = libBackward ns norm * dft 1 ns X xs

end DDC.Spec
