import Verif.Model.Reducer
import Mathlib.Data.Rat.Defs

/-!
# Reductions of floating-point numbers

`reducer::sum` and `reducer::prod` of `/repo/src/ddc/reducer.hpp` on `double`, and the Kokkos reducers chosen for them
by `/repo/src/ddc/parallel_transform_reduce.hpp`.  Each operation is the exact one followed by the rounding `fl`; the
exponent is not bounded (no overflow, no underflow) and there is no NaN.  The algorithms are those of `Model/Reducer.lean`
and `Model/ForEach.lean`, which take the operation as an argument.
-/

namespace DDC.Rounded

/-- `reducer::sum<double>` (reducer.hpp lines 13-23). -/
def sum (fl : Rat → Rat) (lhs rhs : Rat) : Rat := fl (lhs + rhs)

/-- `reducer::prod<double>` (reducer.hpp lines 25-35). -/
def prod (fl : Rat → Rat) (lhs rhs : Rat) : Rat := fl (lhs * rhs)

/-- `Kokkos::Sum<double>`, chosen by `DdcToKokkosReducer` (parallel_transform_reduce.hpp lines 28-32): the identity is `0`
and `join` adds (trusted). -/
def kokkosSum (fl : Rat → Rat) : KReducer Rat := ⟨0, fun dest src => fl (dest + src)⟩

/-- `Kokkos::Prod<double>` (parallel_transform_reduce.hpp lines 34-38): the identity is `1` and `join` multiplies
(trusted). -/
def kokkosProd (fl : Rat → Rat) : KReducer Rat := ⟨1, fun dest src => fl (dest * src)⟩

end DDC.Rounded
