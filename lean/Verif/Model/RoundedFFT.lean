import Verif.Model.FFT
import Verif.Model.RoundedSampling

/-!
# Discrete Fourier transforms, with rounding

The functions of `Model/FFT.lean` on `double` data, with every floating-point operation of DDC followed by a rounding `fl`,
conversions of integers to `double` included (see `Model/Rounded.lean` for the limits).  `Kokkos::complex<double>` is a pair.
`sq` is `Kokkos::sqrt`.  The transforms themselves are done by the external library, which is a parameter.  Single precision
data, for which the coefficient is converted to `float` (fft.hpp line 226), are not modelled.
-/

namespace DDC.Rounded

open FFT

variable (fl sq : Rat → Rat) {τ : Type} [DecidableEq τ]

/-- `Kokkos::numbers::pi` (fft.hpp lines 128 and 273): the `double` 0x1.921fb54442d18p+1. -/
def piDouble : Rat := 884279719003555 / 281474976710656

/-- The external library on `double` data: its transforms, as functions of the axes, the normalisation, the extents of the
input and output views and the content of the input view. -/
structure FFTLibrary where
  fftn : List Nat → KNorm → List Nat → List Nat → (List Nat → Rat × Rat) → Res (List Nat → Rat × Rat)
  ifftn : List Nat → KNorm → List Nat → List Nat → (List Nat → Rat × Rat) → Res (List Nat → Rat × Rat)
  rfftn : List Nat → KNorm → List Nat → List Nat → (List Nat → Rat) → Res (List Nat → Rat × Rat)
  irfftn : List Nat → KNorm → List Nat → List Nat → (List Nat → Rat × Rat) → Res (List Nat → Rat)

/-- `forward_full_norm_coef(ddom)` (fft.hpp lines 125-130).  A quotient by zero is reported as undefined, as in
`Model/FFT.lean`. -/
def fftForwardCoef (u : Uniform τ Rat) (d : Dom τ) : Res Rat := do
  let l ← uniformRlength fl u d
  let e ← Dom.extents d
  let m ← Vect.subInt e 1
  let v ← Vect.value m
  if v = 0 then .ub else .ok (fl (fl (l / sq (fl (2 * piDouble))) / fl (v.toInt : Rat)))

/-- `backward_full_norm_coef(ddom)` (fft.hpp lines 132-136). -/
def fftBackwardCoef (u : Uniform τ Rat) (d : Dom τ) : Res Rat := do
  let c ← fftForwardCoef fl sq u d
  let e ← Dom.extents d
  let v ← Vect.value e
  let p := fl (c * fl (v.toInt : Rat))
  if p = 0 then .ub else .ok (fl (1 / p))

/-- `(coef(DiscreteDomain<DDim>(ddom)) * ...)` (fft.hpp lines 220, 223): a right fold. -/
def fftFoldCoef (coef : Uniform τ Rat → Dom τ → Res Rat) (u : τ → Uniform τ Rat) (d : Dom τ) : List τ → Res Rat
  | [] => .ill
  | [t] => do
    let dt ← Dom.select [t] d
    coef (u t) dt
  | t :: ts => do
    let dt ← Dom.select [t] d
    let a ← coef (u t) dt
    let b ← fftFoldCoef coef u d ts
    pure (fl (a * b))

/-- `ScaleFn<double>{coef}(value)` on a `Kokkos::complex<double>` (fft.hpp lines 110-123): the product of a real and a complex
number multiplies both components. -/
def fftScale (c : Rat) (z : Rat × Rat) : Rat × Rat := (fl (c * z.1), fl (c * z.2))

/-- `ScaleFn<double>{coef}(value)` on a `double` (fft.hpp lines 110-123). -/
def fftScaleR (c : Rat) (x : Rat) : Rat := fl (c * x)

/-- End of `impl` (fft.hpp lines 215-227) for complex output (`scale` is `fftScale`) and for real output (`fftScaleR`). -/
def fftFinish {M : Type} (scale : Rat → M → M) (u : τ → Uniform τ Rat) (dir : Dir) (norm : Norm) (dIn dOut : Dom τ)
    (out : List Nat → M) : Res (List Nat → M) :=
  if norm = .full then do
    let c ← if dir = .forward then fftFoldCoef fl (fftForwardCoef fl sq) u dIn dIn.tags
      else fftFoldCoef fl (fftBackwardCoef fl sq) u dOut dOut.tags
    pure (fun ks => scale c (out ks))
  else pure out

/-- `impl(...)` with complex input and output (fft.hpp lines 148-228, branch of lines 177-193). -/
def fftImplCC (F : FFTLibrary) (u : τ → Uniform τ Rat) (dIn dOut : Dom τ) (dir : Dir) (norm : Norm)
    (f : List Nat → Rat × Rat) : Res (List Nat → Rat × Rat) := do
  ranks dIn dOut
  let nIn ← shape dIn
  let nOut ← shape dOut
  let out ← if dir = .forward then F.fftn (axes dIn.tags) (toKokkos norm) nIn nOut f
    else F.ifftn (axes dIn.tags) (toKokkos norm) nIn nOut f
  fftFinish fl sq (fftScale fl) u dir norm dIn dOut out

/-- `impl(...)` with real input and complex output (fft.hpp lines 148-228, branch of lines 196-204). -/
def fftImplRC (F : FFTLibrary) (u : τ → Uniform τ Rat) (dIn dOut : Dom τ) (dir : Dir) (norm : Norm)
    (f : List Nat → Rat) : Res (List Nat → Rat × Rat) := do
  ranks dIn dOut
  let nIn ← shape dIn
  let nOut ← shape dOut
  Res.guardAbort (decide (dir = .forward))
  let out ← F.rfftn (axes dIn.tags) (toKokkos norm) nIn nOut f
  fftFinish fl sq (fftScale fl) u dir norm dIn dOut out

/-- `impl(...)` with complex input and real output (fft.hpp lines 148-228, branch of lines 205-213). -/
def fftImplCR (F : FFTLibrary) (u : τ → Uniform τ Rat) (dIn dOut : Dom τ) (dir : Dir) (norm : Norm)
    (f : List Nat → Rat × Rat) : Res (List Nat → Rat) := do
  ranks dIn dOut
  let nIn ← shape dIn
  let nOut ← shape dOut
  Res.guardAbort (decide (dir = .backward))
  let out ← F.irfftn (axes dIn.tags) (toKokkos norm) nIn nOut f
  fftFinish fl sq (fftScaleR fl) u dir norm dIn dOut out

/-- `fft(exec_space, out, in, kwargs)` on complex data (fft.hpp lines 344-372). -/
def fftC (F : FFTLibrary) (u : τ → Uniform τ Rat) (dk dx : Dom τ) (norm : Norm) (f : List Nat → Rat × Rat) :
    Res (List Nat → Rat × Rat) := fftImplCC fl sq F u dx dk .forward norm f

/-- `fft(exec_space, out, in, kwargs)` on real data (fft.hpp lines 344-372). -/
def fftR (F : FFTLibrary) (u : τ → Uniform τ Rat) (dk dx : Dom τ) (norm : Norm) (f : List Nat → Rat) :
    Res (List Nat → Rat × Rat) := fftImplRC fl sq F u dx dk .forward norm f

/-- `ifft(exec_space, out, in, kwargs)` to complex data (fft.hpp lines 397-425). -/
def ifftC (F : FFTLibrary) (u : τ → Uniform τ Rat) (dx dk : Dom τ) (norm : Norm) (g : List Nat → Rat × Rat) :
    Res (List Nat → Rat × Rat) := fftImplCC fl sq F u dk dx .backward norm g

/-- `ifft(exec_space, out, in, kwargs)` to real data (fft.hpp lines 397-425). -/
def ifftR (F : FFTLibrary) (u : τ → Uniform τ Rat) (dx dk : Dom τ) (norm : Norm) (g : List Nat → Rat × Rat) :
    Res (List Nat → Rat) := fftImplCR fl sq F u dk dx .backward norm g

/-- `init_fourier_space<DDimFx>(x_mesh)` (fft.hpp lines 253-277).  `2 * (nx - 1) * (nx - 1)` is computed with integers. -/
def initFourierSpace (ft t : τ) (u : Uniform τ Rat) (x : Dom τ) : Res (Periodic τ Rat) := do
  let e ← Dom.extents x
  let nx ← Tup.get t e
  let lx ← uniformRlength fl u x
  let m ← sSub nx 1
  let a ← sMul 2 m
  let b ← sMul a m
  let p ← periodicInit fl ft 0 (fl (fl (fl (b.toInt : Rat) / fl (fl (nx.toInt : Rat) * lx)) * piDouble)) [(ft, nx)] [(ft, nx)]
  pure p.1

end DDC.Rounded
