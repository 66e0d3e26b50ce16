import Verif.Model.HeatOutput
import Verif.Model.SpectralHeat

/-!
# The output of the heat equation by Fourier transforms

`main` of `/repo/examples/heat_equation_spectral.cpp` with its output.

Simplifications: those of `Model/SpectralHeat` and `Model/HeatOutput`; the line `temp[yslice]` is read through the elements of the
chunk it is a line of (that a slice shows those elements is the subject of C16).
-/

namespace DDC.Spectral

open Heat (Params Shown ceilCast)

/-- `display` (heat_equation_spectral.cpp lines 57-70) of the chunk `f` on `xy`. -/
noncomputable def display (time : ℝ) (xy : Dom Dim) (f : List Nat → ℝ) : Res (Shown ℝ) := do
  let sum ← Support.transformReduce (Dom.support xy) 0 (fun a b => .ok (Reducer.sum a b)) (fun e => do
    let is ← place xy e
    .ok (f is))
  let size ← Dom.size xy
  let y ← Dom.ofDomains [.y] [xy]
  let ny ← Dom.size y
  let id : I64 := ny / 2
  let iy ← Elem.addVec (Dom.front y) [(.y, id)]
  let x ← Dom.ofDomains [.x] [xy]
  let values ← Support.forEach (Dom.support x) (fun ix l => do
    let is ← place xy (ix ++ iy)
    .ok (l ++ [f is])) []
  .ok ⟨time, sum / (size.toNat : ℝ), id, values⟩

/-- A round of the time loop before its output (lines 172-192): `_last_temp` and `_next_temp`. -/
noncomputable def round (L : FFT.Library) (u : Dim → Uniform Dim ℝ) (kx ky dt : ℝ) (fx fy : Periodic Dim ℝ)
    (xy k : Dom Dim) (order : List (List I64)) (s : (List Nat → ℝ) × (List Nat → ℝ)) : Res ((List Nat → ℝ) × (List Nat → ℝ)) := do
  let F ← FFT.fftR L u k xy .backward s.1
  let F ← Support.runSchedule (Dom.support k) (kernel kx ky dt fx fy k) order F
  let next ← FFT.ifftR L u xy k .backward F
  .ok (s.1, next)

/-- `main` with its output (lines 72-208): what is shown, and `_last_temp` at the end.  The initial output (lines 155-159) comes after
`init_fourier_space` and `fourier_mesh` (lines 161-165) here, which do not write the chunks. -/
noncomputable def mainShown (L : FFT.Library) (p : Params ℝ) (period : I64) (temp : ℝ → ℝ → ℝ) (junk junk' : List Nat → ℝ)
    (order : List (List I64)) (orders : Nat → List (List I64)) : Res (List (Shown ℝ) × (List Nat → ℝ)) := do
  let (ux, x) ← Uniform.init .x p.xStart p.xEnd [(.x, p.nx)]
  let x ← Dom.removeLast x [(.x, 1)]
  let (uy, y) ← Uniform.init .y p.yStart p.yEnd [(.y, p.ny)]
  let y ← Dom.removeLast y [(.y, 1)]
  let maxRkx := Real.pi / ux.step
  let maxRky := Real.pi / uy.step
  let dt := 2 / (p.kx * maxRkx * maxRkx + p.ky * maxRky * maxRky)
  let n ← ceilCast ((p.endTime - p.startTime) / dt)
  let n ← Vect.addInt [(Dim.t, n)] 1
  let (ut, time) ← Uniform.init Dim.t p.startTime p.endTime n
  let xy ← Dom.ofDomains [.x, .y] [x, y]
  let last ← Support.runSchedule (Dom.support xy) (initial ux uy temp xy) order junk
  let fx ← FFT.initFourierSpace .fx .x ux x
  let fy ← FFT.initFourierSpace .fy .y uy y
  let k ← FFT.fourierMesh [.fx, .fy] xy false
  let (out, s) ← Output.run (S := (List Nat → ℝ) × (List Nat → ℝ)) period
    (fun i s => round L (fun t => if t = .y then uy else ux) p.kx p.ky dt fx fy xy k (orders i) s)
    (fun iter s => do
      let t ← ut.coordinate iter
      display t xy s.2)
    (fun iter s => do
      let t ← ut.coordinate iter
      display t xy s.1)
    (fun s => (s.2, s.1)) time [(Dim.t, 1)] (last, junk')
  .ok (out, s.1)

end DDC.Spectral
