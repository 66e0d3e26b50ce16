import Verif.Model.RoundedAdvection
import Verif.Model.RoundedFFT
import Verif.Model.SpectralHeat

/-!
# The heat equation of the examples by Fourier transforms, with rounding

`main` of `/repo/examples/heat_equation_spectral.cpp` where every floating-point operation is followed by a rounding `fl` (see
`Model/Rounded.lean` for the limits; without rounding: `Model/SpectralHeat.lean`, whose simplifications hold here, too).  The
transforms are those of `Model/RoundedFFT.lean`.
-/

namespace DDC.RoundedSpectral

open Rounded
open Heat (Params)
open Spectral (Dim place)
open RoundedAdvection (ceilCast)

variable (fl sq : Rat → Rat)

/-- The initial temperature (lines 144-151): an iteration.  `temp` is the function of line 150, with its own rounding. -/
def initial (ux uy : Uniform Dim Rat) (temp : Rat → Rat → Rat) (xy : Dom Dim) (ixy : Elem Dim) (f : List Nat → Rat) :
    Res (List Nat → Rat) := do
  let ix ← Tup.select [.x] ixy
  let x ← uniformCoordinate fl ux ix
  let iy ← Tup.select [.y] ixy
  let y ← uniformCoordinate fl uy iy
  let is ← place xy ixy
  .ok (Function.update f is (temp x y))

/-- The factor of line 190; the products are taken from left to right. -/
def factor (kx ky dt rkx rky : Rat) : Rat :=
  fl (1 - fl (fl (fl (fl (kx * rkx) * rkx) + fl (fl (ky * rky) * rky)) * dt))

/-- The kernel on the Fourier mesh (lines 182-191): an iteration.  `operator*=` of `Kokkos::complex<double>` with a `double`
multiplies both components. -/
def kernel (kx ky dt : Rat) (fx fy : Periodic Dim Rat) (k : Dom Dim) (ikxky : Elem Dim) (F : List Nat → Rat × Rat) :
    Res (List Nat → Rat × Rat) := do
  let ikx ← Tup.select [.fx] ikxky
  let iky ← Tup.select [.fy] ikxky
  let rkx ← periodicCoordinate fl fx ikx
  let rky ← periodicCoordinate fl fy iky
  let ks ← place k ikxky
  let c := factor fl kx ky dt rkx rky
  .ok (Function.update F ks (fl ((F ks).1 * c), fl ((F ks).2 * c)))

/-- `n` rounds of the time loop, from round `i` on (lines 170-202), like `Spectral.timeLoop`. -/
def timeLoop (L : FFTLibrary) (u : Dim → Uniform Dim Rat) (kx ky dt : Rat) (fx fy : Periodic Dim Rat) (xy k : Dom Dim)
    (orders : Nat → List (List I64)) : Nat → Nat → (List Nat → Rat) → Res (List Nat → Rat)
  | 0, _, last => .ok last
  | n + 1, i, last => do
    let F ← fftR fl sq L u k xy .backward last
    let F ← Support.runSchedule (Dom.support k) (kernel fl kx ky dt fx fy k) (orders i) F
    let next ← ifftR fl sq L u xy k .backward F
    timeLoop L u kx ky dt fx fy xy k orders n (i + 1) next

/-- `dt` (lines 119-121); the products are taken from left to right. -/
def spectralDt (kx ky dx dy : Rat) : Rat :=
  let maxRkx := fl (piDouble / dx)
  let maxRky := fl (piDouble / dy)
  fl (2 / fl (fl (fl (kx * maxRkx) * maxRkx) + fl (fl (ky * maxRky) * maxRky)))

/-- `main` (lines 72-208), like `Spectral.main`. -/
def main (L : FFTLibrary) (p : Params Rat) (temp : Rat → Rat → Rat) (junk : List Nat → Rat) (order : List (List I64))
    (orders : Nat → List (List I64)) : Res (List Nat → Rat) := do
  let (ux, x) ← uniformInit fl .x p.xStart p.xEnd [(.x, p.nx)]
  let x ← Dom.removeLast x [(.x, 1)]
  let (uy, y) ← uniformInit fl .y p.yStart p.yEnd [(.y, p.ny)]
  let y ← Dom.removeLast y [(.y, 1)]
  let dt := spectralDt fl p.kx p.ky ux.step uy.step
  let n ← ceilCast fl (fl (fl (p.endTime - p.startTime) / dt))
  let n ← Vect.addInt [(Dim.t, n)] 1
  let (_, time) ← uniformInit fl Dim.t p.startTime p.endTime n
  let xy ← Dom.ofDomains [.x, .y] [x, y]
  let last ← Support.runSchedule (Dom.support xy) (initial fl ux uy temp xy) order junk
  let fx ← Rounded.initFourierSpace fl .fx .x ux x
  let fy ← Rounded.initFourierSpace fl .fy .y uy y
  let k ← FFT.fourierMesh [.fx, .fy] xy false
  let time ← Dom.removeFirst time [(Dim.t, 1)]
  let n ← Dom.size time
  timeLoop fl sq L (fun t => if t = .y then uy else ux) p.kx p.ky dt fx fy xy k orders n.toNat 0 last

end DDC.RoundedSpectral
