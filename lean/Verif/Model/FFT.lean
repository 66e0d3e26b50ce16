import Verif.Model.Sampling
import Verif.Model.Strided
import Mathlib.Analysis.SpecialFunctions.Sqrt
import Mathlib.Analysis.SpecialFunctions.Trigonometric.Basic

/-!
# Discrete Fourier transforms

Model of `/repo/src/ddc/kernels/fft.hpp` and `/repo/src/ddc/kernels/fft.cpp`.

Floating-point numbers are the real numbers, `Kokkos::complex` is `ℂ`.  A chunk span over a domain
is a function of the multi-index relative to the front of the domain (both layouts are right-handed,
lines 359-362 and 412-415, so that the Kokkos view of the allocation has the extents of the domain in
the order of its dimensions).  The transforms themselves are done by the external library Kokkos-FFT,
which is a parameter here.  The discrete spaces of the original dimensions are a parameter `u`.
-/

namespace DDC.FFT

open DDC

variable {τ : Type} [DecidableEq τ]

/-- `FFT_Direction` (fft.hpp lines 33-36). -/
inductive Dir
  | forward
  | backward
  deriving DecidableEq

/-- `FFT_Normalization` (fft.hpp lines 43-53). -/
inductive Norm
  | off
  | forward
  | backward
  | ortho
  | full
  deriving DecidableEq

/-- `KokkosFFT::Normalization`. -/
inductive KNorm
  | none
  | forward
  | backward
  | ortho
  deriving DecidableEq

/-- `ddc_fft_normalization_to_kokkos_fft(...)` (fft.cpp lines 13-34).  The exception for a value that
is not an enumerator is not modelled. -/
def toKokkos : Norm → KNorm
  | .off => .none
  | .full => .none
  | .forward => .forward
  | .backward => .backward
  | .ortho => .ortho

/-- `axes<DDimX...>()` (fft.hpp lines 100-105). -/
def axes (ts : List τ) : List Nat := ts.map (fun t => TypeSeq.rank t ts)

/-- The external library: its four transforms, as functions of the axes, the normalisation, the
extents of the input and output views and the content of the input view. -/
structure Library where
  fftn : List Nat → KNorm → List Nat → List Nat → (List Nat → ℂ) → Res (List Nat → ℂ)
  ifftn : List Nat → KNorm → List Nat → List Nat → (List Nat → ℂ) → Res (List Nat → ℂ)
  rfftn : List Nat → KNorm → List Nat → List Nat → (List Nat → ℝ) → Res (List Nat → ℂ)
  irfftn : List Nat → KNorm → List Nat → List Nat → (List Nat → ℂ) → Res (List Nat → ℝ)

/-- Extents of `allocation_kokkos_view()` of a chunk span over `d`. -/
def shape (d : Dom τ) : Res (List Nat) := do
  let e ← Dom.extents d
  pure (e.map (fun p => p.2.toNat))

/-- `x / n` for a real `x` and a `ptrdiff_t` `n`.  The quotient by zero (a NaN or an infinity in the
program) has no value among the real numbers: it is reported as undefined. -/
noncomputable def divInt (x : ℝ) (n : I64) : Res ℝ :=
  if n = 0 then .ub else .ok (x / (n.toInt : ℝ))

/-- `forward_full_norm_coef(ddom)` (fft.hpp lines 125-130). -/
noncomputable def forwardCoef (u : Uniform τ ℝ) (d : Dom τ) : Res ℝ := do
  let l ← u.rlength d
  let e ← Dom.extents d
  let m ← Vect.subInt e 1
  let v ← Vect.value m
  divInt (l / √(2 * Real.pi)) v

/-- `backward_full_norm_coef(ddom)` (fft.hpp lines 132-136). -/
noncomputable def backwardCoef (u : Uniform τ ℝ) (d : Dom τ) : Res ℝ := do
  let c ← forwardCoef u d
  let e ← Dom.extents d
  let v ← Vect.value e
  if c * (v.toInt : ℝ) = 0 then .ub else .ok (1 / (c * (v.toInt : ℝ)))

/-- `(coef(DiscreteDomain<DDim>(ddom)) * ...)` (fft.hpp lines 220, 223): a right fold. -/
noncomputable def foldCoef (coef : Uniform τ ℝ → Dom τ → Res ℝ) (u : τ → Uniform τ ℝ) (d : Dom τ) :
    List τ → Res ℝ
  | [] => .ill
  | [t] => do
    let dt ← Dom.select [t] d
    coef (u t) dt
  | t :: ts => do
    let dt ← Dom.select [t] d
    let a ← coef (u t) dt
    let b ← foldCoef coef u d ts
    pure (a * b)

/-- End of `impl` (fft.hpp lines 215-227): mesh-dependent scaling of the output.
`ddc::parallel_transform` with `ScaleFn` multiplies every element (lines 110-123). -/
noncomputable def finish {M : Type} [SMul ℝ M] (u : τ → Uniform τ ℝ) (dir : Dir) (norm : Norm)
    (dIn dOut : Dom τ) (out : List Nat → M) : Res (List Nat → M) :=
  if norm = .full then do
    let c ← if dir = .forward then foldCoef forwardCoef u dIn dIn.tags
      else foldCoef backwardCoef u dOut dOut.tags
    pure (fun ks => c • out ks)
  else pure out

/-- Beginning of `impl` (fft.hpp lines 148-175): both views must have the rank of the input, the
fold expressions need a non-empty pack. -/
def ranks (dIn dOut : Dom τ) : Res Unit :=
  Res.guardIll (decide (dIn.length = dOut.length) && !dIn.isEmpty)

/-- `impl(...)` with complex input and output (fft.hpp lines 148-228, branch of lines 177-193). -/
noncomputable def implCC (F : Library) (u : τ → Uniform τ ℝ) (dIn dOut : Dom τ) (dir : Dir)
    (norm : Norm) (f : List Nat → ℂ) : Res (List Nat → ℂ) := do
  ranks dIn dOut
  let nIn ← shape dIn
  let nOut ← shape dOut
  let out ← if dir = .forward then F.fftn (axes dIn.tags) (toKokkos norm) nIn nOut f
    else F.ifftn (axes dIn.tags) (toKokkos norm) nIn nOut f
  finish u dir norm dIn dOut out

/-- `impl(...)` with real input and complex output (fft.hpp lines 148-228, branch of
lines 196-204). -/
noncomputable def implRC (F : Library) (u : τ → Uniform τ ℝ) (dIn dOut : Dom τ) (dir : Dir)
    (norm : Norm) (f : List Nat → ℝ) : Res (List Nat → ℂ) := do
  ranks dIn dOut
  let nIn ← shape dIn
  let nOut ← shape dOut
  Res.guardAbort (decide (dir = .forward))
  let out ← F.rfftn (axes dIn.tags) (toKokkos norm) nIn nOut f
  finish u dir norm dIn dOut out

/-- `impl(...)` with complex input and real output (fft.hpp lines 148-228, branch of
lines 205-213). -/
noncomputable def implCR (F : Library) (u : τ → Uniform τ ℝ) (dIn dOut : Dom τ) (dir : Dir)
    (norm : Norm) (f : List Nat → ℂ) : Res (List Nat → ℝ) := do
  ranks dIn dOut
  let nIn ← shape dIn
  let nOut ← shape dOut
  Res.guardAbort (decide (dir = .backward))
  let out ← F.irfftn (axes dIn.tags) (toKokkos norm) nIn nOut f
  finish u dir norm dIn dOut out

/-- `fft(exec_space, out, in, kwargs)` on complex data (fft.hpp lines 344-372). -/
noncomputable def fftC (F : Library) (u : τ → Uniform τ ℝ) (dk dx : Dom τ) (norm : Norm)
    (f : List Nat → ℂ) : Res (List Nat → ℂ) := implCC F u dx dk .forward norm f

/-- `fft(exec_space, out, in, kwargs)` on real data (fft.hpp lines 344-372). -/
noncomputable def fftR (F : Library) (u : τ → Uniform τ ℝ) (dk dx : Dom τ) (norm : Norm)
    (f : List Nat → ℝ) : Res (List Nat → ℂ) := implRC F u dx dk .forward norm f

/-- `ifft(exec_space, out, in, kwargs)` to complex data (fft.hpp lines 397-425). -/
noncomputable def ifftC (F : Library) (u : τ → Uniform τ ℝ) (dx dk : Dom τ) (norm : Norm)
    (g : List Nat → ℂ) : Res (List Nat → ℂ) := implCC F u dk dx .backward norm g

/-- `ifft(exec_space, out, in, kwargs)` to real data (fft.hpp lines 397-425). -/
noncomputable def ifftR (F : Library) (u : τ → Uniform τ ℝ) (dx dk : Dom τ) (norm : Norm)
    (g : List Nat → ℂ) : Res (List Nat → ℝ) := implCR F u dk dx .backward norm g

/-- `init_fourier_space<DDimFx>(x_mesh)` (fft.hpp lines 253-277).  When `nx * lx` is zero the program
passes a NaN (`nx = 1`) or an infinity (`nx = 0`) to `init`, which stops at its first or second
assertion; here the quotient by zero is zero, for which `init` stops as well. -/
noncomputable def initFourierSpace (ft t : τ) (u : Uniform τ ℝ) (x : Dom τ) :
    Res (Periodic τ ℝ) := do
  let e ← Dom.extents x
  let nx ← Tup.get t e
  let lx ← u.rlength x
  let m ← sSub nx 1
  let a ← sMul 2 m
  let b ← sMul a m
  let p ← Periodic.init ft 0 ((b.toInt : ℝ) / ((nx.toInt : ℝ) * lx) * Real.pi) [(ft, nx)] [(ft, nx)]
  pure p.1

/-- `array(extents).back() = array(extents).back() / 2 + 1` (fft.hpp line 305). -/
def halveLast : Vect τ → Res (Vect τ)
  | [] => .ub
  | [(t, n)] => do
    let a ← SDom.sDiv n 2
    let b ← sAdd a 1
    pure [(t, b)]
  | p :: v => do
    let w ← halveLast v
    pure (p :: w)

/-- Extents of the Fourier mesh (fft.hpp lines 303-306). -/
def meshExtents (c2c : Bool) (e : Vect τ) : Res (Vect τ) := if c2c then .ok e else halveLast e

/-- `fourier_mesh<DDimFx...>(x_mesh, C2C)` (fft.hpp lines 294-310).  The two packs are expanded
together and must have the same length. -/
def fourierMesh (fts : List τ) (x : Dom τ) (c2c : Bool) : Res (Dom τ) := do
  let e ← Dom.extents x
  Res.guardIll (decide (fts.length = x.length))
  let e ← meshExtents c2c e
  let ds ← (fts.zip x.tags).mapM (fun p => do
    let n ← Tup.get p.2 e
    Dom.ofSize [(p.1, 0)] [(p.1, n)])
  Dom.ofDomains fts ds

end DDC.FFT
