import Verif.Spec.Builder

/-!
# Well-posed interpolation problems

The classical conditions of Schoenberg and Whitney on the points of an interpolation problem.
-/

namespace DDC.Spec

variable {K : Type} [Field K] [LinearOrder K]

/-- The conditions of Schoenberg and Whitney: the points increase, the B-spline number `lo + k` does not vanish
at the point number `k`, and an end is not a point if its value is already given, as the derivative of
order 0. -/
structure SchoenbergWhitney (t : Nat → K) (p n lo hi N : Nat) (X : Nat → K) : Prop where
  increase : ∀ i j, i < j → j < N → X i < X j
  ge : ∀ k, k < N → t p ≤ X k
  le : ∀ k, k < N → X k ≤ t (p + n)
  support : ∀ k, k < N → bspline t (t (p + n)) p (lo + k) (X k) ≠ 0
  lower : 0 < lo → p % 2 = 0 → X 0 ≠ t p
  upper : 0 < hi → p % 2 = 0 → X (N - 1) ≠ t (p + n)

/-- Simple knots that are continued periodically. -/
structure PeriodicKnots (t : Nat → K) (p n : Nat) : Prop where
  cells : 0 < n
  strict : ∀ i, i < n + 2 * p → t i < t (i + 1)
  period : ∀ i, i ≤ 2 * p → t (i + n) = t i + (t (p + n) - t p)

/-- The conditions of Schoenberg and Whitney for a periodic problem: the points increase in one period, and the
B-spline number `off + k` does not vanish at the point number `k`. -/
structure PeriodicSchoenbergWhitney (t : Nat → K) (p n off : Nat) (X : Nat → K) : Prop where
  increase : ∀ i j, i < j → j < n → X i < X j
  ge : ∀ k, k < n → t p ≤ X k
  lt : ∀ k, k < n → X k < t (p + n)
  support : ∀ k, k < n → bspline t (t (p + n)) p (off + k) (X k) ≠ 0

end DDC.Spec
