import Verif.Model.Loop
import Mathlib.Algebra.Field.Defs
import Mathlib.Algebra.Order.Field.Rat
import Mathlib.Algebra.Order.Floor.Defs
import Mathlib.Data.Rat.Floor

/-!
# Small numerical helpers (kernels/splines/math_tools.hpp)

`double` is a field `K`, except in `modulo`: there the operations are those of the rationals followed by a
rounding `fl`.  The other functions of the model that call these helpers use the closed forms; `C57` shows
that both agree.
-/

namespace DDC.MathTools

open Res

/-- `sum(T* array, int size)` (lines 14-22).  A negative `size` gives no iteration. -/
def sumPtr {K : Type} [Field K] (array : Arr K) (size : Int) : Res K :=
  forLoop (fun i val => do
    let x ← array.rd i
    pure (val + x)) 0 size.toNat 0

/-- `sum(mdspan)` (lines 24-37). -/
def sumSpan {K : Type} [Field K] (array : Arr K) : Res K :=
  forLoop (fun i val => do
    let x ← array.rd i
    pure (val + x)) 0 array.size 0

/-- `sum(mdspan, int start, int end)` (lines 39-54).  A negative index converts to a huge `size_t`, which is
out of bounds. -/
def sumRange {K : Type} [Field K] (array : Arr K) (start stop : Int) : Res K :=
  if start < stop then
    if start < 0 then .ub
    else forLoop (fun i val => do
      let x ← array.rd i
      pure (val + x)) start.toNat (stop - start).toNat 0
  else .ok 0

/-- Conversion of a `double` to a signed integer type of `w` bits: truncation, undefined out of range. -/
def toInt (w : Nat) (x : Rat) : Res Int :=
  let t : Int := if 0 ≤ x then ⌊x⌋ else ⌈x⌉
  if -2 ^ (w - 1) ≤ t ∧ t < 2 ^ (w - 1) then .ok t else .ub

/-- `modulo(T x, T y)` on a signed integer type of `w` bits (lines 56-60): `double(x)`, the conversion of `y`,
the quotient, the product and the difference are rounded by `fl`.  A zero divisor gives an infinity or a NaN,
whose conversion is undefined. -/
def modulo (fl : Rat → Rat) (w : Nat) (x y : Int) : Res Int :=
  if fl y = 0 then .ub
  else toInt w (fl (fl x - fl (fl y * (⌊fl (fl x / fl y)⌋ : Rat))))

/-- `ipow(double a, std::size_t i)` (lines 62-69). -/
def ipowSize {K : Type} [Field K] (a : K) (i : U64) : Res K :=
  forLoop (fun _ r => .ok (r * a)) 0 i.toNat 1

/-- `ipow(double a, int i)` (lines 71-85).  `-i` overflows for the smallest `int`.  `1.0 / 0.0` is an infinity
in the code, `0` in the field. -/
def ipowInt {K : Type} [Field K] (a : K) (i : BitVec 32) : Res K :=
  if 0 < i.toInt then forLoop (fun _ r => .ok (r * a)) 0 i.toInt.toNat 1
  else if i.toInt < 0 then
    if i.toInt = -2 ^ 31 then .ub
    else do
      let r ← forLoop (fun _ r => .ok (r * a)) 0 (-i.toInt).toNat 1
      pure (1 / r)
  else .ok 1

/-- The loop of `factorial`: `for (i = ...; i < bound; ++i) r *= i;` on `size_t`; `fuel` is the number of
iterations left. -/
def factorialLoop (bound : U64) : Nat → U64 → U64 → U64
  | 0, _, r => r
  | fuel + 1, i, r => if i < bound then factorialLoop bound fuel (i + 1) (r * i) else r

/-- `factorial(std::size_t f)` (lines 87-94).  The counter takes less than `2^64` values before it reaches the
bound. -/
def factorial (f : U64) : U64 := factorialLoop (f + 1) (2 ^ 64) 2 1

/-- `dot_product(std::array<T, D>, std::array<T, D>)` (lines 96-104). -/
def dotProduct {K : Type} [Field K] (D : Nat) (a b : Arr K) : Res K :=
  forLoop (fun i result => do
    let x ← a.rd i
    let y ← b.rd i
    pure (result + x * y)) 0 D 0

/-- `min(T x, T y)` (lines 106-110). -/
def min {α : Type} (lt : α → α → Bool) (x y : α) : α := if lt x y then x else y

/-- `max(T x, T y)` (lines 112-116), `x > y`. -/
def max {α : Type} (lt : α → α → Bool) (x y : α) : α := if lt y x then x else y

end DDC.MathTools
