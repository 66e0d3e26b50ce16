import Verif.Model.Sampling
import Mathlib.Algebra.Order.Field.Rat
import Mathlib.Algebra.Field.Rat

/-!
# Point samplings, with rounding

The functions of `Model/Sampling.lean` that compute with coordinates, with every floating-point operation
followed by a rounding `fl`, conversions of integers to `double` included (see `Model/Rounded.lean` for the
limits).  A non-uniform sampling only stores its points and subtracts them.
-/

namespace DDC.Rounded

variable (fl : Rat → Rat) {τ : Type} [DecidableEq τ]

/-- `(b - a) / (n - 1)` where `n` is a `DiscreteVector` that converts to `std::ptrdiff_t`
(uniform_point_sampling.hpp lines 146-147 and 179, periodic_sampling.hpp lines 170 and 205). -/
def samplingStep (a b : Rat) (n : Vect τ) : Res Rat := do
  let m ← Vect.subInt n 1
  let y ← Vect.value m
  pure (fl (fl (b - a) / fl (y.toInt : Rat)))

/-! ## Uniform sampling -/

/-- `coordinate(icoord)` (uniform_point_sampling.hpp lines 124-128). -/
def uniformCoordinate (u : Uniform τ Rat) (i : Elem τ) : Res Rat := do
  let v ← Elem.sub i u.ref
  let k ← Vect.value v
  pure (fl (u.origin + fl (fl (k.toInt : Rat) * u.step)))

/-- `init(a, b, n)` (uniform_point_sampling.hpp lines 140-150). -/
def uniformInit (t : τ) (a b : Rat) (n : Vect τ) : Res (Uniform τ Rat × Dom τ) := do
  Res.guardAbort (decide (a < b))
  let x ← Vect.value n
  Res.guardAbort (decide (1 < x.toInt))
  let s ← samplingStep fl a b n
  let disc ← Uniform.mk' t a s
  let dom ← Dom.ofSize disc.ref n
  pure (disc, dom)

/-- `init_ghosted(a, b, n, n_ghosts_before, n_ghosts_after)` (uniform_point_sampling.hpp
lines 163-192): attributes, main domain, ghosted domain, pre-ghost and post-ghost domains. -/
def uniformInitGhosted (t : τ) (a b : Rat) (n g1 g2 : Vect τ) :
    Res (Uniform τ Rat × Dom τ × Dom τ × Dom τ × Dom τ) := do
  Res.guardAbort (decide (a < b))
  let x ← Vect.value n
  Res.guardAbort (decide (1 < x.toInt))
  let s ← samplingStep fl a b n
  let z ← Vect.value g1
  let disc ← Uniform.mk' t (fl (a - fl (fl (z.toInt : Rat) * s))) s
  let n1 ← Vect.add n g1
  let n2 ← Vect.add n1 g2
  let ghosted ← Dom.ofSize disc.ref n2
  let pre ← Dom.takeFirst ghosted g1
  let main ← Dom.remove ghosted g1 g2
  let post ← Dom.takeLast ghosted g2
  pure (disc, main, ghosted, pre, post)

/-- `init_ghosted(a, b, n, n_ghosts)` (uniform_point_sampling.hpp lines 204-218). -/
def uniformInitGhosted1 (t : τ) (a b : Rat) (n g : Vect τ) : Res (Uniform τ Rat × Dom τ × Dom τ × Dom τ × Dom τ) :=
  uniformInitGhosted fl t a b n g g

/-- `rmin(d)` (uniform_point_sampling.hpp lines 287-292). -/
def uniformRmin (u : Uniform τ Rat) (d : Dom τ) : Res Rat := uniformCoordinate fl u (Dom.front d)

/-- `rmax(d)` (uniform_point_sampling.hpp lines 294-299). -/
def uniformRmax (u : Uniform τ Rat) (d : Dom τ) : Res Rat := do
  let e ← Dom.back d
  uniformCoordinate fl u e

/-- `rlength(d)` (uniform_point_sampling.hpp lines 301-306). -/
def uniformRlength (u : Uniform τ Rat) (d : Dom τ) : Res Rat := do
  let x ← uniformRmax fl u d
  let y ← uniformRmin fl u d
  pure (fl (x - y))

/-! ## Periodic sampling -/

/-- `coordinate(icoord)` (periodic_sampling.hpp lines 138-146). -/
def periodicCoordinate (u : Periodic τ Rat) (i : Elem τ) : Res Rat := do
  let v ← Elem.sub i u.ref
  let w ← Vect.addSize v (u.period / 2)
  let x ← Vect.value w
  let r ← Periodic.umod x u.period
  let k ← Periodic.int32Sub (Periodic.toInt32 r) (Periodic.toInt32 (u.period / 2))
  pure (fl (u.origin + fl (fl (k : Rat) * u.step)))

/-- `init(a, b, n, n_period)` (periodic_sampling.hpp lines 159-173). -/
def periodicInit (t : τ) (a b : Rat) (n p : Vect τ) : Res (Periodic τ Rat × Dom τ) := do
  Res.guardAbort (decide (a < b))
  let x ← Vect.value n
  Res.guardAbort (decide (1 < x.toInt))
  let w ← Vect.value p
  Res.guardAbort (decide (1 < w.toInt))
  let s ← samplingStep fl a b n
  let disc ← Periodic.mk' t a s w
  let dom ← Dom.ofSize disc.ref n
  pure (disc, dom)

/-- `init_ghosted(a, b, n, n_period, n_ghosts_before, n_ghosts_after)` (periodic_sampling.hpp
lines 187-220): attributes, main domain, ghosted domain, pre-ghost and post-ghost domains. -/
def periodicInitGhosted (t : τ) (a b : Rat) (n p g1 g2 : Vect τ) :
    Res (Periodic τ Rat × Dom τ × Dom τ × Dom τ × Dom τ) := do
  Res.guardAbort (decide (a < b))
  let x ← Vect.value n
  Res.guardAbort (decide (1 < x.toInt))
  let w ← Vect.value p
  Res.guardAbort (decide (1 < w.toInt))
  let s ← samplingStep fl a b n
  let z ← Vect.value g1
  let disc ← Periodic.mk' t (fl (a - fl (fl (z.toInt : Rat) * s))) s w
  let n1 ← Vect.add n g1
  let n2 ← Vect.add n1 g2
  let ghosted ← Dom.ofSize disc.ref n2
  let pre ← Dom.takeFirst ghosted g1
  let main ← Dom.remove ghosted g1 g2
  let post ← Dom.takeLast ghosted g2
  pure (disc, main, ghosted, pre, post)

end DDC.Rounded
