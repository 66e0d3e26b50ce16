import Verif.Model.RoundedReducer
import Verif.Model.View
import Verif.Model.HeatEquation

/-!
# The mean shown by the example programs, with rounding

The programs of `/repo/examples` that advance a solution in time show its mean: `host_transform_reduce` with
`reducer::sum<double>`, divided by the size of the domain.  Each operation is the exact one followed by the rounding `fl`; the exponent
is not bounded (no overflow, no underflow) and there is no NaN.  The time and the slice that are shown beside it are not rounded again:
they are in `Model/HeatOutput.lean`.
-/

namespace DDC.Rounded

variable {τ : Type} [DecidableEq τ]

/-- The mean in `display` (uniform_heat_equation.cpp lines 59-61, heat_equation.cpp lines 70-72, non_uniform_heat_equation.cpp lines
132-134, heat_equation_spectral.cpp lines 60-62, characteristics_advection.cpp lines 85-87).  The size, a `std::size_t`, is converted to
`double` for the division.  A division by zero, which gives a NaN in IEC 559 arithmetic, is `ub`, as in the C++ standard. -/
def meanShown (fl : Rat → Rat) (temp : View (Dom τ)) (mem : Mem Rat) : Res Rat := do
  let total ← Support.transformReduce (Dom.support temp.span.dom) 0 (fun a b => .ok (sum fl a b)) (fun e => View.get mem temp [e])
  let size ← Dom.size temp.span.dom
  if size = 0 then .ub
  else .ok (fl (total / fl (size.toNat : Rat)))

/-- The same for the temperatures on the points of the domain, without the ghosts: the call of `display` (uniform_heat_equation.cpp lines
188, 254-255, 267-268, heat_equation.cpp lines 238, 311, 324).
Where the calls restrict to one domain after the other, here it is to both at once. -/
def mainMeanShown (fl : Rat → Rat) (xDomain yDomain : Dom Heat.Dim) (temp : View (Dom Heat.Dim)) (mem : Mem Rat) : Res Rat := do
  let d ← Dom.ofDomains [.x, .y] [xDomain, yDomain]
  let w ← View.restrictTo temp d
  meanShown fl w mem

end DDC.Rounded
