import Verif.Model.RoundedBasis

/-!
# Derivatives of all orders of B-splines and of splines, with rounding

`eval_basis_and_n_derivs` and the derivatives of a spline with every floating-point operation followed by a rounding `fl`
(see `Model/Rounded.lean`).  Changes of sign and the conversions of small integers to `double` are exact.
-/

namespace DDC.Rounded

variable (fl : Rat → Rat)

/-! ## Uniform B-splines -/

namespace Knots

/-- Inner loop filling `ndu` (bsplines_uniform.hpp lines 511-516): state `(ndu, xx, saved)`. -/
def nduInner (j : Nat) (r : Nat) (s : Arr2 Rat × Rat × Rat) : Res (Arr2 Rat × Rat × Rat) := do
  let xx := fl (s.2.1 + 1)
  let v ← s.1.rd (j - 1) r
  let temp := fl (v / (j : Rat))
  let a ← s.1.wr j r (fl (s.2.2 + fl (xx * temp)))
  pure (a, xx, fl (fl ((j : Rat) - xx) * temp))

/-- Outer loop filling `ndu` (bsplines_uniform.hpp lines 508-518). -/
def nduOuter (offset : Rat) (j : Nat) (ndu : Arr2 Rat) : Res (Arr2 Rat) := do
  let s ← forLoop (nduInner fl j) 0 j (ndu, -offset, 0)
  s.1.wr j j s.2.2

/-- Innermost loop (bsplines_uniform.hpp lines 537-542): state `(a, d)`. -/
def coefInner (ndu : Arr2 Rat) (rk pk s1 s2 : Int) (j : Nat) (s : Arr2 Rat × Rat) : Res (Arr2 Rat × Rat) := do
  let x ← s.1.rd j s1
  let y ← s.1.rd (j - 1) s1
  let a ← s.1.wr j s2 (fl (fl (x - y) / ((pk + 1 : Int) : Rat)))
  let z ← a.rd j s2
  let w ← ndu.rd pk (rk + j)
  pure (a, fl (s.2 + fl (z * w)))

/-- First block of an order (bsplines_uniform.hpp lines 530-533). -/
def coefFirst (ndu : Arr2 Rat) (r k rk pk s1 s2 : Int) (a : Arr2 Rat) : Res (Arr2 Rat × Rat) :=
  if k ≤ r then do
    let x ← a.rd 0 s1
    let a ← a.wr 0 s2 (fl (x / ((pk + 1 : Int) : Rat)))
    let z ← a.rd 0 s2
    let w ← ndu.rd pk rk
    pure (a, fl (z * w))
  else pure (a, 0)

/-- Last block of an order (bsplines_uniform.hpp lines 543-546). -/
def coefLast (ndu : Arr2 Rat) (r k pk s1 s2 : Int) (s : Arr2 Rat × Rat) : Res (Arr2 Rat × Rat) :=
  if r ≤ pk then do
    let x ← s.1.rd (k - 1) s1
    let a ← s.1.wr k s2 (fl (-x / ((pk + 1 : Int) : Rat)))
    let z ← a.rd k s2
    let w ← ndu.rd pk r
    pure (a, fl (s.2 + fl (z * w)))
  else pure s

/-- Loop over the orders of derivation `k` (bsplines_uniform.hpp lines 526-549). -/
def orderStep (p : Nat) (ndu : Arr2 Rat) (r : Nat) (k : Nat) (s : UBS.CoefState Rat) : Res (UBS.CoefState Rat) := do
  let rk : Int := (r : Int) - k
  let pk : Int := (p : Int) - k
  let f ← coefFirst fl ndu r k rk pk s.s1 s.s2 s.a
  let j1 : Int := if -1 < rk then 1 else -rk
  let j2 : Int := if (r : Int) - 1 ≤ pk then k else (p : Int) - r + 1
  let f ← forLoop (coefInner fl ndu rk pk s.s1 s.s2) j1.toNat (j2.toNat - j1.toNat) f
  let f ← coefLast fl ndu r k pk s.s1 s.s2 f
  let d ← s.derivs.wr r k f.2
  pure ⟨f.1, d, s.s2, s.s1⟩

/-- Loop over the B-splines `r` (bsplines_uniform.hpp lines 523-550). -/
def splineStep (p n : Nat) (ndu : Arr2 Rat) (r : Nat) (s : Arr2 Rat × Arr2 Rat) : Res (Arr2 Rat × Arr2 Rat) := do
  let a ← s.1.wr 0 0 1
  let t ← forLoop (orderStep fl p ndu r) 1 n ⟨a, s.2, 0, 1⟩
  pure (t.a, t.derivs)

end Knots

/-- `derivs(i, k) *= d` (bsplines_uniform.hpp lines 558-560 and bsplines_non_uniform.hpp lines 658-660). -/
def scaleEntry (k : Nat) (d : Rat) (i : Nat) (derivs : Arr2 Rat) : Res (Arr2 Rat) := do
  let v ← derivs.rd i k
  derivs.wr i k (fl (v * d))

/-- Loop multiplying by the factors (bsplines_uniform.hpp lines 557-562): state `(derivs, d)`. -/
def Knots.scaleStep (p : Nat) (invDx : Rat) (k : Nat) (s : Arr2 Rat × Rat) : Res (Arr2 Rat × Rat) := do
  let a ← forLoop (scaleEntry fl k s.2) 0 s.1.rows s.1
  pure (a, fl (s.2 * fl (((p : Rat) - (k : Rat)) * invDx)))

/-- `eval_basis_and_n_derivs(derivs, x, n)` of uniform B-splines (bsplines_uniform.hpp lines 474-565): the array and the
number of the first B-spline, as in `Knots.evalBasis`. -/
def Knots.evalBasisAndNDerivs (u : Knots) (derivs : Arr2 Rat) (x : Rat) (n : Nat) : Res (Arr2 Rat × Int) := do
  let p := u.p
  checkInside fl x (u.rmin fl) (u.rmax fl)
  Res.guardAbort (decide (n ≤ p))
  Res.guardAbort (decide (derivs.rows = 1 + p))
  Res.guardAbort (decide (derivs.cols = 1 + n))
  let c ← getIcellAndOffset fl u x
  let ndu ← (Arr2.uninit (p + 1) (p + 1)).wr 0 0 1
  let ndu ← forLoop (Knots.nduOuter fl c.2) 1 p ndu
  let derivs ← forLoop (UBS.copyZeroth p ndu) 0 ndu.cols derivs
  let s ← forLoop (Knots.splineStep fl p n ndu) 0 (p + 1) (Arr2.uninit (p + 1) 2, derivs)
  let s ← forLoop (Knots.scaleStep fl p (u.invStep fl)) 1 n (s.2, fl ((p : Rat) * u.invStep fl))
  pure (s.1, c.1)

/-! ## Non-uniform B-splines -/

/-- Inner loop filling `ndu` (bsplines_non_uniform.hpp lines 607-616): state `(ndu, saved)`. -/
def nduInner (left right : Arr Rat) (j : Nat) (r : Nat) (s : Arr2 Rat × Rat) : Res (Arr2 Rat × Rat) := do
  let rr ← right.rd r
  let ll ← left.rd (j - r)
  let a ← s.1.wr r (j + 1) (fl (1 / fl (rr + ll)))
  let v ← a.rd j r
  let w ← a.rd r (j + 1)
  let temp := fl (v * w)
  let a ← a.wr (j + 1) r (fl (s.2 + fl (rr * temp)))
  pure (a, fl (ll * temp))

/-- Outer loop filling `ndu` (bsplines_non_uniform.hpp lines 603-618). -/
def nduOuter (u : NUBS Rat) (icell : U64) (x : Rat) (j : Nat) (s : NUBS.NduState Rat) : Res (NUBS.NduState Rat) := do
  let tl ← u.knot (icell - BitVec.ofNat 64 j)
  let left ← s.left.wr j (fl (x - tl))
  let tr ← u.knot (icell + BitVec.ofNat 64 j + 1)
  let right ← s.right.wr j (fl (tr - x))
  let t ← forLoop (nduInner fl left right j) 0 (j + 1) (s.ndu, 0)
  let ndu ← t.1.wr (j + 1) (j + 1) t.2
  pure ⟨ndu, left, right⟩

/-- Innermost loop (bsplines_non_uniform.hpp lines 639-644): state `(a, d)`. -/
def coefInner (ndu : Arr2 Rat) (rk pk s1 s2 : Int) (j : Nat) (s : Arr2 Rat × Rat) : Res (Arr2 Rat × Rat) := do
  let x ← s.1.rd j s1
  let y ← s.1.rd (j - 1) s1
  let q ← ndu.rd (rk + j) (pk + 1)
  let a ← s.1.wr j s2 (fl (fl (x - y) * q))
  let z ← a.rd j s2
  let w ← ndu.rd pk (rk + j)
  pure (a, fl (s.2 + fl (z * w)))

/-- First block of an order (bsplines_non_uniform.hpp lines 632-636). -/
def coefFirst (ndu : Arr2 Rat) (r k rk pk s1 s2 : Int) (a : Arr2 Rat) : Res (Arr2 Rat × Rat) :=
  if k ≤ r then do
    let x ← a.rd 0 s1
    let q ← ndu.rd rk (pk + 1)
    let a ← a.wr 0 s2 (fl (x * q))
    let z ← a.rd 0 s2
    let w ← ndu.rd pk rk
    pure (a, fl (z * w))
  else pure (a, 0)

/-- Last block of an order (bsplines_non_uniform.hpp lines 645-649). -/
def coefLast (ndu : Arr2 Rat) (r k pk s1 s2 : Int) (s : Arr2 Rat × Rat) : Res (Arr2 Rat × Rat) :=
  if r ≤ pk then do
    let x ← s.1.rd (k - 1) s1
    let q ← ndu.rd r (pk + 1)
    let a ← s.1.wr k s2 (fl (-x * q))
    let z ← a.rd k s2
    let w ← ndu.rd pk r
    pure (a, fl (s.2 + fl (z * w)))
  else pure s

/-- Loop over the orders of derivation `k` (bsplines_non_uniform.hpp lines 629-652). -/
def orderStep (p : Nat) (ndu : Arr2 Rat) (r : Nat) (k : Nat) (s : UBS.CoefState Rat) : Res (UBS.CoefState Rat) := do
  let rk : Int := (r : Int) - k
  let pk : Int := (p : Int) - k
  let f ← coefFirst fl ndu r k rk pk s.s1 s.s2 s.a
  let j1 : Int := if -1 < rk then 1 else -rk
  let j2 : Int := if (r : Int) - 1 ≤ pk then k else (p : Int) - r + 1
  let f ← forLoop (coefInner fl ndu rk pk s.s1 s.s2) j1.toNat (j2.toNat - j1.toNat) f
  let f ← coefLast fl ndu r k pk s.s1 s.s2 f
  let d ← s.derivs.wr r k f.2
  pure ⟨f.1, d, s.s2, s.s1⟩

/-- Loop over the B-splines `r` (bsplines_non_uniform.hpp lines 625-653). -/
def splineStep (p n : Nat) (ndu : Arr2 Rat) (r : Nat) (s : Arr2 Rat × Arr2 Rat) : Res (Arr2 Rat × Arr2 Rat) := do
  let a ← s.1.wr 0 0 1
  let t ← forLoop (orderStep fl p ndu r) 1 n ⟨a, s.2, 0, 1⟩
  pure (t.a, t.derivs)

/-- Loop multiplying by the factors (bsplines_non_uniform.hpp lines 656-662): state `(derivs, r)`, where `r` is an `int`
as in `NUBS.scaleStep`; its conversion to `double` is exact. -/
def scaleStep (p : Nat) (k : Nat) (s : Arr2 Rat × BitVec 32) : Res (Arr2 Rat × BitVec 32) := do
  let a ← forLoop (scaleEntry fl k ((s.2.toInt : Int) : Rat)) 0 s.1.rows s.1
  pure (a, Periodic.toInt32 (BitVec.ofInt 64 s.2.toInt * (BitVec.ofNat 64 p - BitVec.ofNat 64 k)))

/-- `eval_basis_and_n_derivs(derivs, x, n)` of non-uniform B-splines (bsplines_non_uniform.hpp lines 559-665). -/
def evalBasisAndNDerivs (u : NUBS Rat) (derivs : Arr2 Rat) (x : Rat) (n : Nat) : Res (Arr2 Rat × Elem Unit) := do
  let p := u.degree
  let a ← u.rmin
  let b ← u.rmax
  checkInside fl x a b
  Res.guardAbort (decide (n ≤ p))
  Res.guardAbort (decide (derivs.rows = 1 + p))
  Res.guardAbort (decide (derivs.cols = 1 + n))
  let ic ← findCellStart fl u x
  let icell ← uid1 ic
  checkCell fl u x icell
  let ndu ← (Arr2.uninit (p + 1) (p + 1)).wr 0 0 1
  let t ← forLoop (nduOuter fl u icell x) 0 p ⟨ndu, Arr.uninit p, Arr.uninit p⟩
  let derivs ← forLoop (UBS.copyZeroth p t.ndu) 0 (p + 1) derivs
  let s ← forLoop (splineStep fl p n t.ndu) 0 (p + 1) (Arr2.uninit (p + 1) 2, derivs)
  let s ← forLoop (scaleStep fl p) 1 n (s.2, BitVec.ofNat 32 p)
  let e ← u.firstBsplineInCell ic
  pure (s.1, e)

/-! ## Derivatives of splines -/

/-- The copy of a column of `derivs` to `vals` (spline_evaluator.hpp lines 592-594). -/
def column (p o : Nat) (d : Arr2 Rat) : Res (Arr Rat) :=
  forLoop (fun i v => do
    let y ← d.rd i o
    v.wr i y) 0 (p + 1) (Arr.uninit (p + 1))

/-- `deriv` on a coordinate in one dimension (spline_evaluator.hpp lines 358-366, 557-605), for uniform B-splines. -/
def Knots.deriv (k : Knots) (order : U64) (x : Rat) (coef : Coefs Rat) : Res Rat := do
  Res.guardAbort (decide (0 < order.toNat ∧ order.toNat ≤ k.p))
  let (d, j) ← k.evalBasisAndNDerivs fl (Arr2.uninit (k.p + 1) (order.toNat + 1)) x order.toNat
  let v ← column k.p order.toNat d
  sum1 fl k.p v (BitVec.ofInt 64 j) coef

/-- The same for non-uniform B-splines. -/
def deriv (u : NUBS Rat) (order : U64) (x : Rat) (coef : Coefs Rat) : Res Rat := do
  Res.guardAbort (decide (0 < order.toNat ∧ order.toNat ≤ u.degree))
  let (d, e) ← evalBasisAndNDerivs fl u (Arr2.uninit (u.degree + 1) (order.toNat + 1)) x order.toNat
  let v ← column u.degree order.toNat d
  let j ← uid1 e
  sum1 fl u.degree v j coef

end DDC.Rounded
