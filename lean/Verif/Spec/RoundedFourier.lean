import Verif.Spec.Fourier
import Verif.Spec.Float
import Verif.Model.RoundedFFT

/-!
# Fourier transforms with rounding

What is assumed of `Kokkos::sqrt` and of the transforms of the external library.
-/

namespace DDC.Spec

open FFT

/-- A square root with the relative error of one rounding. -/
def RoundsSqrt (sq : Rat → Rat) : Prop := ∀ x : Rat, 0 ≤ x → |((sq x : Rat) : ℝ) - √(x : ℝ)| ≤ √(x : ℝ) / 2 ^ 53

/-- The complex number of a `Kokkos::complex<double>`. -/
noncomputable def toC (z : Rat × Rat) : ℂ := ⟨(z.1 : ℝ), (z.2 : ℝ)⟩

/-- The sum of real values over the multi-indices of a box. -/
noncomputable def mass : List Nat → (List Nat → ℝ) → ℝ
  | [], f => f []
  | n :: ns, f => ∑ i ∈ Finset.range n, mass ns (fun is => f (i :: is))

/-- The contract of the library for arrays of rank `r` transformed along all their axes, taken in order, with no empty extent:
every value of a transform is exact up to `η` times the (normalised) sum of the absolute values of the data.  The transform to
real data is compared with that of any conjugate symmetric array: the distance of the data from its non-redundant half, every
mode of which stands for at most two modes, adds to the error. -/
structure FFTLibrary.Accurate (F : Rounded.FFTLibrary) (r : Nat) (η : ℝ) : Prop where
  fftn : ∀ norm ns f, ns.length = r → (∀ n ∈ ns, 0 < n) →
    ∃ g, F.fftn (List.range r) norm ns ns f = .ok g ∧ ∀ ks, Within ns ks →
      ‖toC (g ks) - libForward ns norm * dft (-1) ns (fun xs => toC (f xs)) ks‖ ≤
        η * (libForward ns norm * mass ns (fun xs => ‖toC (f xs)‖))
  ifftn : ∀ norm ns f, ns.length = r → (∀ n ∈ ns, 0 < n) →
    ∃ g, F.ifftn (List.range r) norm ns ns f = .ok g ∧ ∀ xs, Within ns xs →
      ‖toC (g xs) - libBackward ns norm * dft 1 ns (fun ks => toC (f ks)) xs‖ ≤
        η * (libBackward ns norm * mass ns (fun ks => ‖toC (f ks)‖))
  rfftn : ∀ norm ns f, ns.length = r → (∀ n ∈ ns, 0 < n) →
    ∃ g, F.rfftn (List.range r) norm ns (halfShape ns) f = .ok g ∧ ∀ ks, Within (halfShape ns) ks →
      ‖toC (g ks) - libForward ns norm * dft (-1) ns (fun xs => toC (f xs, 0)) ks‖ ≤
        η * (libForward ns norm * mass ns (fun xs => ‖toC (f xs, 0)‖))
  irfftn : ∀ norm ns g (X : List Nat → ℂ), ns.length = r → (∀ n ∈ ns, 0 < n) → Hermitian ns X →
    ∃ f, F.irfftn (List.range r) norm (halfShape ns) ns g = .ok f ∧ ∀ xs, Within ns xs →
      ‖toC (f xs, 0) - libBackward ns norm * dft 1 ns X xs‖ ≤ libBackward ns norm *
        (η * mass ns (fun ks => ‖X ks‖) + (1 + η) * (2 * mass (halfShape ns) (fun ks => ‖toC (g ks) - X ks‖)))

end DDC.Spec
