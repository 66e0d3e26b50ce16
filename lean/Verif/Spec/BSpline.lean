import Mathlib.Algebra.Order.Field.Basic
import Mathlib.Algebra.Polynomial.Derivative

/-!
# Specification vocabulary for B-splines

Textbook definitions (Cox–de Boor recursion), independent of the code of DDC.
-/

namespace DDC.Spec

variable {K : Type} [Field K] [LinearOrder K]

/-- `x` belongs to the `i`-th knot interval: `[t_i, t_{i+1})`, except at the right end `b` of the
domain where it is `(t_i, t_{i+1}]`. -/
def InCell (t : Nat → K) (b x : K) (i : Nat) : Prop :=
  if x < b then t i ≤ x ∧ x < t (i + 1) else t i < x ∧ x ≤ t (i + 1)

instance (t : Nat → K) (b x : K) (i : Nat) : Decidable (InCell t b x i) := by
  unfold InCell; infer_instance

/-- Cox–de Boor recursion: value at `x` of the `i`-th B-spline of degree `p` on the knots `t`; a
quotient by zero counts as zero. -/
def bspline (t : Nat → K) (b : K) : Nat → Nat → K → K
  | 0, i, x => if InCell t b x i then 1 else 0
  | p + 1, i, x =>
    (x - t i) / (t (i + p + 1) - t i) * bspline t b p i x +
    (t (i + p + 2) - x) / (t (i + p + 2) - t (i + 1)) * bspline t b p (i + 1) x

open Polynomial in
/-- The polynomial piece of the `i`-th B-spline of degree `p` on the knot interval `c`. -/
noncomputable def piece (t : Nat → K) (c : Nat) : Nat → Nat → Polynomial K
  | 0, i => if i = c then 1 else 0
  | p + 1, i =>
    C (1 / (t (i + p + 1) - t i)) * (X - C (t i)) * piece t c p i +
    C (1 / (t (i + p + 2) - t (i + 1))) * (C (t (i + p + 2)) - X) * piece t c p (i + 1)

/-- The knots of the uniform B-splines of degree `p` with `n` cells on `[a, b]`: the break points are
`a + k (b - a) / n` and the sequence is continued with the same step by `p` knots on each side; the
numbering starts at the first of these. -/
def uniformKnot (a b : K) (n p : Nat) (k : Nat) : K := a + ((k : K) - (p : K)) * ((b - a) / (n : K))

end DDC.Spec
