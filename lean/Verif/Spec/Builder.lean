import Verif.Spec.BSpline
import Mathlib.Algebra.BigOperators.Group.Finset.Basic

/-!
# Interpolation by splines

Textbook vocabulary: a spline is a linear combination of the `n + p` B-splines of degree `p` on the
`n` cells delimited by the knots `t p, …, t (p + n)`; it is determined by its values at some points and
its derivatives at the two ends.
-/

namespace DDC.Spec

open Polynomial

variable {K : Type} [Field K] [LinearOrder K]

/-- The derivative of order `k` at `x` of the `J`-th B-spline, seen from the cell `c`. -/
noncomputable def basisDeriv (t : Nat → K) (p c k J : Nat) (x : K) : K :=
  (derivative^[k] (piece t c p J)).eval x

/-- The value at `x` of the spline with the coefficients `c`. -/
def splineValue (t : Nat → K) (p n : Nat) (c : Nat → K) (x : K) : K :=
  ∑ J ∈ Finset.range (n + p), c J * bspline t (t (p + n)) p J x

/-- Its derivative of order `k` at `x`, seen from the cell `cell`. -/
noncomputable def splineDeriv (t : Nat → K) (p n : Nat) (c : Nat → K) (cell k : Nat) (x : K) : K :=
  ∑ J ∈ Finset.range (n + p), c J * basisDeriv t p cell k J x

/-- The conditions of an interpolation problem, as linear forms on the B-splines: `lo` derivatives at the
lower end, `N` values at the points `X`, then derivatives at the upper end; the derivatives start at
the order `p % 2` and the one of order `k` is multiplied by `h ^ k`. -/
noncomputable def condition (t : Nat → K) (p n lo N : Nat) (X : Nat → K) (h : K) (i J : Nat) : K :=
  if i < lo then h ^ (i + p % 2) * basisDeriv t p p (i + p % 2) J (t p)
  else if i < lo + N then bspline t (t (p + n)) p J (X (i - lo))
  else h ^ (i - (lo + N) + p % 2) * basisDeriv t p (p + n - 1) (i - (lo + N) + p % 2) J (t (p + n))

/-- The matrix of the conditions `R` for `nb` unknowns: the `J`-th coefficient is the unknown number
`J - off` modulo `nb`. -/
noncomputable def collocation (R : Nat → Nat → K) (size nb : Nat) (off : Int) (i j : Nat) : K :=
  ∑ J ∈ Finset.range size, if ((J : Int) - off) % (nb : Int) = j then R i J else 0

end DDC.Spec
