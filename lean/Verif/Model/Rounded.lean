import Verif.Model.BSplines
import Mathlib.Algebra.Order.Field.Rat
import Mathlib.Algebra.Field.Rat
import Mathlib.Data.Rat.Floor

/-!
# Locating a coordinate, with rounding

The functions that locate a coordinate among the cells, with every floating-point operation followed by a
rounding `fl`.  The `double`s are rationals; overflow, infinities and NaN are not modelled, and the compiler is
supposed not to contract operations (no fused multiply-add).  Comparisons are exact.
-/

namespace DDC.Rounded

/-- The discrete space of the knots of uniform B-splines (uniform_point_sampling.hpp lines 52-54), and the
number of cells and the degree of the B-splines. -/
structure Knots where
  origin : Rat
  step : Rat
  n : Nat
  p : Nat

variable (fl : Rat → Rat)

/-- `UniformBSplines::Impl(rmin, rmax, ncells)` (bsplines_uniform.hpp lines 134-147), through
`UniformPointSampling::init_ghosted` (uniform_point_sampling.hpp lines 170-197, with `n - 1 = ncells`).  The
conversions of the numbers of cells and of ghosts to `double` are exact. -/
def mkKnots (a b : Rat) (n p : Nat) : Knots :=
  let step := fl (fl (b - a) / n)
  ⟨fl (a - fl (p * step)), step, n, p⟩

namespace Knots

/-- `coordinate(icoord)` (uniform_point_sampling.hpp lines 124-128). -/
def coordinate (k : Knots) (i : Nat) : Rat := fl (k.origin + fl (i * k.step))

/-- `rmin()` (bsplines_uniform.hpp lines 278-281). -/
def rmin (k : Knots) : Rat := k.coordinate fl k.p

/-- `rmax()` (bsplines_uniform.hpp lines 287-290). -/
def rmax (k : Knots) : Rat := k.coordinate fl (k.p + k.n)

/-- `length()` (bsplines_uniform.hpp lines 296-299). -/
def length (k : Knots) : Rat := fl (k.rmax fl - k.rmin fl)

/-- `inv_step()` (bsplines_uniform.hpp lines 357-360). -/
def invStep (k : Knots) : Rat := fl (1 / k.step)

end Knots

/-- The two assertions on `x` (bsplines_uniform.hpp lines 573-574 and bsplines_non_uniform.hpp lines 672-673);
the literal `1e-14` is rounded, too. -/
def checkInside (x a b : Rat) : Res Unit := do
  Res.guardAbort (decide (fl (-(fl (b - a)) * fl (1 / 10 ^ 14)) ≤ fl (x - a)))
  Res.guardAbort (decide (fl (-(fl (b - a)) * fl (1 / 10 ^ 14)) ≤ fl (b - x)))

/-- `get_icell_and_offset(icell, offset, x)` (bsplines_uniform.hpp lines 568-595).  The number of cells fits in
an `int`. -/
def getIcellAndOffset (k : Knots) (x : Rat) : Res (Int × Rat) := do
  checkInside fl x (k.rmin fl) (k.rmax fl)
  if x ≤ k.rmin fl then pure (0, 0)
  else if k.rmax fl ≤ x then pure ((k.n : Int) - 1, 1)
  else do
    let offset := fl (fl (x - k.rmin fl) * k.invStep fl)
    let icell ← UBS.truncInt offset
    let offset := fl (offset - icell)
    if icell = k.n ∧ offset = 0 then pure ((k.n : Int) - 1, 1) else pure (icell, offset)

/-- The coordinate at which a periodic evaluator evaluates (spline_evaluator.hpp lines 535-545), on the domain from `r` to
`R` whose `length()` is `R - r` (bsplines_uniform.hpp lines 296-299, bsplines_non_uniform.hpp lines 306-309). -/
def wrapOf (r R x : Rat) : Rat :=
  if x < r ∨ R < x then
    fl (x - fl ((⌊fl (fl (x - r) / fl (R - r))⌋ : Rat) * fl (R - r)))
  else x

/-- The same for uniform B-splines. -/
def wrap (k : Knots) (x : Rat) : Rat := wrapOf fl (k.rmin fl) (k.rmax fl) x

/-- `find_cell_start(x)` of non-uniform B-splines (bsplines_non_uniform.hpp lines 667-695): only the assertions
compute, the search compares `x` with the knots. -/
def findCellStart (u : NUBS Rat) (x : Rat) : Res (Elem Unit) := do
  let a ← u.rmin
  let b ← u.rmax
  checkInside fl x a b
  let fe := Dom.front u.breakDom
  let be ← Dom.back u.breakDom
  if x ≤ a then pure fe
  else if b ≤ x then Elem.subInt be 1
  else do
    let low ← uid1 fe
    let high ← uid1 be
    let c ← u.searchLoop x (high.toNat - low.toNat + 1) low high
    pure (el1 c)

end DDC.Rounded
