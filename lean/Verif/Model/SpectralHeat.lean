import Verif.Model.FFT
import Verif.Model.HeatEquation

/-!
# The heat equation of the examples by Fourier transforms

`main` of `/repo/examples/heat_equation_spectral.cpp`: the domains, the time step, the initial temperature and the time loop.
The parameters of lines 80-99 are arguments.

Simplifications: numbers are real; the content of a chunk is a function of the multi-index relative to the front of its
domain, as in `Model/FFT`, so that the allocations are left out; the display and the copies to the host that only serve it
(lines 153-159, 194-198, 204-207) are left out; a kernel is complete when the function that launches it returns (C66);
`ddc::init_discrete_space` hands the attributes over unchanged (C25, C68).
-/

namespace DDC.Spectral

open Heat (Params ceilCast)

/-- `DDimX`, `DDimY`, `DDimT`, `DDimFx`, `DDimFy` (lines 22-51). -/
inductive Dim
  | x
  | y
  | t
  | fx
  | fy
  deriving DecidableEq, Repr

/-- The multi-index of `chunk(delem)` in a chunk on `d`, with the assertion (chunk_span.hpp lines 354-368). -/
def place (d : Dom Dim) (e : Elem Dim) : Res (List Nat) := do
  let b ← Dom.contains d [e]
  Res.guardAbort b
  let v ← Dom.distanceFromFront d [e]
  .ok (v.map (fun p => p.2.toNat))

/-- The initial temperature (lines 144-151): an iteration. -/
noncomputable def initial (ux uy : Uniform Dim ℝ) (temp : ℝ → ℝ → ℝ) (xy : Dom Dim) (ixy : Elem Dim) (f : List Nat → ℝ) :
    Res (List Nat → ℝ) := do
  let ix ← Tup.select [.x] ixy
  let x ← ux.coordinate ix
  let iy ← Tup.select [.y] ixy
  let y ← uy.coordinate iy
  let is ← place xy ixy
  .ok (Function.update f is (temp x y))

/-- The kernel on the Fourier mesh (lines 182-191): an iteration. -/
noncomputable def kernel (kx ky dt : ℝ) (fx fy : Periodic Dim ℝ) (k : Dom Dim) (ikxky : Elem Dim) (F : List Nat → ℂ) :
    Res (List Nat → ℂ) := do
  let ikx ← Tup.select [.fx] ikxky
  let iky ← Tup.select [.fy] ikxky
  let rkx ← fx.coordinate ikx
  let rky ← fy.coordinate iky
  let ks ← place k ikxky
  .ok (Function.update F ks (F ks * ((1 - (kx * rkx * rkx + ky * rky * rky) * dt : ℝ) : ℂ)))

/-- `n` rounds of the time loop, from round `i` on (lines 170-202); `std::swap` makes the chunk that `ifft` has written the
last one.  Returns `_last_temp`. -/
noncomputable def timeLoop (L : FFT.Library) (u : Dim → Uniform Dim ℝ) (kx ky dt : ℝ) (fx fy : Periodic Dim ℝ)
    (xy k : Dom Dim) (orders : Nat → List (List I64)) : Nat → Nat → (List Nat → ℝ) → Res (List Nat → ℝ)
  | 0, _, last => .ok last
  | n + 1, i, last => do
    let F ← FFT.fftR L u k xy .backward last
    let F ← Support.runSchedule (Dom.support k) (kernel kx ky dt fx fy k) (orders i) F
    let next ← FFT.ifftR L u xy k .backward F
    timeLoop L u kx ky dt fx fy xy k orders n (i + 1) next

/-- `main` (lines 72-208): `_last_temp` at the end; `order` and `orders` are the orders of the iterations of the kernels,
`junk` is what the first chunk holds when it is allocated. -/
noncomputable def main (L : FFT.Library) (p : Params ℝ) (temp : ℝ → ℝ → ℝ) (junk : List Nat → ℝ) (order : List (List I64))
    (orders : Nat → List (List I64)) : Res (List Nat → ℝ) := do
  let (ux, x) ← Uniform.init .x p.xStart p.xEnd [(.x, p.nx)]
  let x ← Dom.removeLast x [(.x, 1)]
  let (uy, y) ← Uniform.init .y p.yStart p.yEnd [(.y, p.ny)]
  let y ← Dom.removeLast y [(.y, 1)]
  let maxRkx := Real.pi / ux.step
  let maxRky := Real.pi / uy.step
  let dt := 2 / (p.kx * maxRkx * maxRkx + p.ky * maxRky * maxRky)
  let n ← ceilCast ((p.endTime - p.startTime) / dt)
  let n ← Vect.addInt [(Dim.t, n)] 1
  let (_, time) ← Uniform.init Dim.t p.startTime p.endTime n
  let xy ← Dom.ofDomains [.x, .y] [x, y]
  let last ← Support.runSchedule (Dom.support xy) (initial ux uy temp xy) order junk
  let fx ← FFT.initFourierSpace .fx .x ux x
  let fy ← FFT.initFourierSpace .fy .y uy y
  let k ← FFT.fourierMesh [.fx, .fy] xy false
  let time ← Dom.removeFirst time [(Dim.t, 1)]
  let n ← Dom.size time
  timeLoop L (fun t => if t = .y then uy else ux) p.kx p.ky dt fx fy xy k orders n.toNat 0 last

end DDC.Spectral
