import Verif.Spec.Builder
import Mathlib.Algebra.BigOperators.Fin

/-!
# Tensor products of splines

A spline in several variables is a linear combination of the products of B-splines in each variable; the
coefficients are a function of the list of the indices.
-/

namespace DDC.Spec

variable {K : Type} [Field K] [LinearOrder K]

/-- The numbers `w J` are the values at `x` of the B-splines (`none`), or of their derivatives of order `k`
(`some k`), seen from the cell of `x`. -/
def Weights (t : Nat → K) (p n : Nat) (order : Option Nat) (x : K) (w : Nat → K) : Prop :=
  match order with
  | none => ∀ J, w J = bspline t (t (p + n)) p J x
  | some k => ∃ c, InCell t (t (p + n)) x c ∧ ∀ J, w J = basisDeriv t p c k J x

/-- `∑ c(J₁, …, J_d) w₁(J₁) … w_d(J_d)`, where each variable is the number of its B-splines and its
weights. -/
def tensor : List (Nat × (Nat → K)) → (List Nat → K) → K
  | [], c => c []
  | (size, w) :: ds, c => ∑ J ∈ Finset.range size, w J * tensor ds fun l => c (J :: l)

/-- `y` is the coordinate `x` brought back into `[a, b]` if the dimension is periodic, `x` otherwise; a coordinate of
`[a, b]` is not changed. -/
structure Reduced (per : Bool) (a b x y : K) : Prop where
  same : per = false → y = x
  inside : per = true → a ≤ y ∧ y ≤ b
  multiple : per = true → ∃ k : Int, x = y + k * (b - a)
  fixed : a ≤ x → x ≤ b → y = x

end DDC.Spec
