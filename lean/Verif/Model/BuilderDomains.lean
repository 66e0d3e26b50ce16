import Verif.Model.Quadrature
import Verif.Model.Domain

/-!
# The domains that `SplineBuilder` gives to its users

Model of `/repo/src/ddc/kernels/splines/spline_builder.hpp` lines 373-517, on domains with any tags.  The domain
`interp` is `m_interpolation_domain`, `full` is `spline_domain()` and `rows` is
`m_matrix->required_number_of_rhs_rows()`; these are the subject of `Model/Builder.lean`.
-/

namespace DDC

/-- The tags `interpolation_discrete_dimension_type`, `bsplines_type` and `deriv_type`. -/
structure BuilderTags (τ : Type) where
  interp : τ
  bspl : τ
  deriv : τ

namespace BuilderTags

variable {τ : Type} [DecidableEq τ]

/-- `batched_interpolation_domain(d)` (spline_builder.hpp lines 394-400): the assertion that begins all the functions
of this file, then the identity. -/
def batchedInterpolation (T : BuilderTags τ) (interp d : Dom τ) : Res (Dom τ) := do
  let i ← Dom.select [T.interp] d
  let b ← Dom.eq interp i
  Res.guardAbort b
  .ok d

/-- `batch_domain(d)` (spline_builder.hpp lines 411-417). -/
def batch (T : BuilderTags τ) (interp d : Dom τ) : Res (Dom τ) := do
  let d ← T.batchedInterpolation interp d
  Dom.removeDimsOf d [T.interp]

/-- `batched_spline_domain(d)` (spline_builder.hpp lines 440-448). -/
def batchedSpline (T : BuilderTags τ) (interp full d : Dom τ) : Res (Dom τ) := do
  let d ← T.batchedInterpolation interp d
  Dom.replaceDimOf T.interp T.bspl d full

/-- `batched_spline_tr_domain(d)` (spline_builder.hpp lines 461-473, with the type of lines 141-147). -/
def batchedSplineTr (T : BuilderTags τ) (interp full d : Dom τ) (rows : U64) : Res (Dom τ) := do
  let d ← T.batchedInterpolation interp d
  let s ← T.batchedSpline interp full d
  let r ← Dom.ofSize [(T.bspl, 0)] [(T.bspl, rows)]
  let s ← Dom.replaceDimOf T.bspl T.bspl s r
  Dom.ofDomains (TypeSeq.merge [T.bspl] (TypeSeq.remove d.tags [T.interp])) [s]

/-- `batched_derivs_xmin_domain(d)` and `batched_derivs_xmax_domain(d)` (spline_builder.hpp lines 486-517) with
`nbv = s_nbv_xmin` or `s_nbv_xmax`. -/
def batchedDerivs (T : BuilderTags τ) (interp d : Dom τ) (nbv : Nat) : Res (Dom τ) := do
  let d ← T.batchedInterpolation interp d
  let r ← Dom.ofSize [(T.deriv, 1)] [(T.deriv, BitVec.ofNat 64 nbv)]
  Dom.replaceDimOf T.interp T.deriv d r

end BuilderTags

end DDC
