import Verif.Model.Sampling
import Verif.Model.Loop
import Mathlib.Algebra.Order.Floor.Defs

/-!
# B-splines

Model of `/repo/src/ddc/kernels/splines/bsplines_uniform.hpp` and
`/repo/src/ddc/kernels/splines/bsplines_non_uniform.hpp`.

`double` is an ordered field `K`: rounding, NaN and infinities are not modelled; the conversion of a
`double` to `int` needs its integer part (`FloorRing`).  A B-spline dimension and the dimension of its
knots have a single tag each, represented by `()`.  The attributes of the knots, that the constructor
registers with `init_discrete_space`, are kept in the object.  `KOKKOS_ASSERT` is taken to be enabled:
a failing assertion is `abort`.
-/

namespace DDC

/-- The element with the given index in a dimension. -/
def el1 (i : U64) : Elem Unit := [((), i)]

/-- The displacement by the given value in a dimension. -/
def ve1 (i : I64) : Vect Unit := [((), i)]

/-- `uid()` of an element with one tag (discrete_element.hpp lines 237-247). -/
def uid1 (e : Elem Unit) : Res U64 := Tup.get () e

section

variable {K : Type} [Field K] [LinearOrder K]

/-- The literal `1e-14`. -/
def tol : K := 1 / 10 ^ 14

/-! ## Uniform B-splines -/

/-- `UniformBSplines<CDim, D>::Impl` (bsplines_uniform.hpp lines 120-125), with the template
parameters `D` and `CDim::PERIODIC`. -/
structure UBS (K : Type) where
  degree : Nat
  periodic : Bool
  knots : Uniform Unit K
  knotDom : Dom Unit
  breakDom : Dom Unit
  ref : Elem Unit
  deriving DecidableEq

namespace UBS

/-- Constructor (bsplines_uniform.hpp lines 135-148) with the `static_assert` of line 51. -/
def mk' (p : Nat) (per : Bool) (rmin rmax : K) (ncells : U64) : Res (UBS K) := do
  Res.guardIll (decide (0 < p))
  Res.guardAbort (decide (0 < ncells))
  let r ← Uniform.initGhosted () rmin rmax (ve1 (ncells + 1)) (ve1 (BitVec.ofNat 64 p))
    (ve1 (BitVec.ofNat 64 p))
  pure ⟨p, per, r.1, r.2.2.1, r.2.1, Elem.createReference ()⟩

/-- `rmin()` (bsplines_uniform.hpp lines 281-284). -/
def rmin (u : UBS K) : Res K := u.knots.coordinate (Dom.front u.breakDom)

/-- `rmax()` (bsplines_uniform.hpp lines 290-293). -/
def rmax (u : UBS K) : Res K := do
  let e ← Dom.back u.breakDom
  u.knots.coordinate e

/-- `length()` (bsplines_uniform.hpp lines 299-302). -/
def length (u : UBS K) : Res K := do
  let b ← u.rmax
  let a ← u.rmin
  pure (b - a)

/-- `ncells()` (bsplines_uniform.hpp lines 352-355). -/
def ncells (u : UBS K) : Res U64 := do
  let n ← Dom.size u.breakDom
  pure (n - 1)

/-- `size()` (bsplines_uniform.hpp lines 312-315). -/
def size (u : UBS K) : Res U64 := do
  let n ← u.ncells
  pure (BitVec.ofNat 64 u.degree + n)

/-- `nbasis()` (bsplines_uniform.hpp lines 341-344). -/
def nbasis (u : UBS K) : Res U64 := do
  let n ← u.ncells
  pure (n + (if u.periodic then 0 else BitVec.ofNat 64 u.degree))

/-- `full_domain()` (bsplines_uniform.hpp lines 321-324). -/
def fullDomain (u : UBS K) : Res (Dom Unit) := do
  let n ← u.size
  Dom.ofSize u.ref (ve1 n)

/-- `get_first_support_knot(ix)` (bsplines_uniform.hpp lines 254-258). -/
def firstSupportKnot (u : UBS K) (ix : Elem Unit) : Res (Elem Unit) := do
  let v ← Elem.sub ix u.ref
  let k ← Vect.value v
  Elem.addInt (Dom.front u.knotDom) k

/-- `get_last_support_knot(ix)` (bsplines_uniform.hpp lines 270-275). -/
def lastSupportKnot (u : UBS K) (ix : Elem Unit) : Res (Elem Unit) := do
  let e ← u.firstSupportKnot ix
  Elem.addVec e (ve1 (BitVec.ofNat 64 (u.degree + 1)))

/-- `inv_step()` (bsplines_uniform.hpp lines 358-361). -/
def invStep (u : UBS K) : K := 1 / u.knots.step

/-- `static_cast<int>(x)` of a `double`: truncation towards zero, undefined when it is not
representable. -/
def truncInt [FloorRing K] (x : K) : Res Int :=
  let z := if 0 ≤ x then ⌊x⌋ else ⌈x⌉
  if -2 ^ 31 ≤ z ∧ z < 2 ^ 31 then .ok z else .ub

/-- `int` obtained from a `std::size_t`. -/
def sizeToInt (n : U64) : Int := (Periodic.toInt32 n).toInt

/-- The two assertions on `x` (bsplines_uniform.hpp lines 573-574, 489-490 and
bsplines_non_uniform.hpp lines 469-470, 507-508, 578-579, 672-673). -/
def checkInside (x a b : K) : Res Unit := do
  Res.guardAbort (decide (-(b - a) * tol ≤ x - a))
  Res.guardAbort (decide (-(b - a) * tol ≤ b - x))

/-- `get_icell_and_offset(icell, offset, x)` (bsplines_uniform.hpp lines 568-595). -/
def getIcellAndOffset [FloorRing K] (u : UBS K) (x : K) : Res (Int × K) := do
  let a ← u.rmin
  let b ← u.rmax
  checkInside x a b
  let n ← u.ncells
  if x ≤ a then pure (0, 0)
  else if b ≤ x then pure (sizeToInt (n - 1), 1)
  else do
    let offset := (x - a) * u.invStep
    let icell ← truncInt offset
    let offset := offset - (icell : K)
    if icell = sizeToInt n ∧ offset = 0 then pure (sizeToInt (n - 1), 1) else pure (icell, offset)

/-- Inner loop of the triangular scheme (bsplines_uniform.hpp lines 414-421 and 451-458): state
`(values, xx, saved)`. -/
def basisInner (j : Nat) (r : Nat) (s : Arr K × K × K) : Res (Arr K × K × K) := do
  let xx := s.2.1 + 1
  let v ← s.1.rd r
  let temp := v / (j : K)
  let a ← s.1.wr r (s.2.2 + xx * temp)
  pure (a, xx, ((j : K) - xx) * temp)

/-- Outer loop of the triangular scheme (bsplines_uniform.hpp lines 411-423 and 448-460). -/
def basisOuter (offset : K) (j : Nat) (values : Arr K) : Res (Arr K) := do
  let s ← forLoop (basisInner j) 0 j (values, -offset, 0)
  s.1.wr j s.2.2

/-- `eval_basis(values, x, degree)` (bsplines_uniform.hpp lines 392-427): the values and the returned
element. -/
def evalBasisDeg [FloorRing K] (u : UBS K) (values : Arr K) (x : K) (degree : Nat) :
    Res (Arr K × Elem Unit) := do
  Res.guardAbort (decide (values.size = degree + 1))
  let c ← u.getIcellAndOffset x
  let values ← values.wr 0 1
  let values ← forLoop (basisOuter c.2) 1 (values.size - 1) values
  let e ← Elem.addInt u.ref (BitVec.ofInt 64 c.1)
  pure (values, e)

/-- `eval_basis(values, x)` (bsplines_uniform.hpp lines 203-208). -/
def evalBasis [FloorRing K] (u : UBS K) (values : Arr K) (x : K) : Res (Arr K × Elem Unit) := do
  Res.guardAbort (decide (values.size = u.degree + 1))
  u.evalBasisDeg values x u.degree

/-- Second loop of `eval_deriv` (bsplines_uniform.hpp lines 463-467): state `(derivs, bj, bjm1)`. -/
def derivDiff (j : Nat) (s : Arr K × K × K) : Res (Arr K × K × K) := do
  let bj ← s.1.rd j
  let a ← s.1.wr j (s.2.2 - bj)
  pure (a, bj, bj)

/-- `eval_deriv(derivs, x)` (bsplines_uniform.hpp lines 429-472). -/
def evalDeriv [FloorRing K] (u : UBS K) (derivs : Arr K) (x : K) : Res (Arr K × Elem Unit) := do
  Res.guardAbort (decide (derivs.size = u.degree + 1))
  let c ← u.getIcellAndOffset x
  let d ← derivs.wr 0 (1 / u.knots.step)
  let d ← forLoop (basisOuter c.2) 1 (u.degree - 1) d
  let bjm1 ← d.rd 0
  let d ← d.wr 0 (-bjm1)
  let s ← forLoop derivDiff 1 (u.degree - 1) (d, bjm1, bjm1)
  let d ← s.1.wr u.degree s.2.1
  let e ← Elem.addInt u.ref (BitVec.ofInt 64 c.1)
  pure (d, e)

/-- Inner loop filling `ndu` (bsplines_uniform.hpp lines 511-516): state `(ndu, xx, saved)`. -/
def nduInner (j : Nat) (r : Nat) (s : Arr2 K × K × K) : Res (Arr2 K × K × K) := do
  let xx := s.2.1 + 1
  let v ← s.1.rd (j - 1) r
  let temp := v / (j : K)
  let a ← s.1.wr j r (s.2.2 + xx * temp)
  pure (a, xx, ((j : K) - xx) * temp)

/-- Outer loop filling `ndu` (bsplines_uniform.hpp lines 508-518). -/
def nduOuter (offset : K) (j : Nat) (ndu : Arr2 K) : Res (Arr2 K) := do
  let s ← forLoop (nduInner j) 0 j (ndu, -offset, 0)
  s.1.wr j j s.2.2

/-- Copy of the values of degree `p` (bsplines_uniform.hpp lines 519-521 and
bsplines_non_uniform.hpp lines 621-623). -/
def copyZeroth (p : Nat) (ndu : Arr2 K) (i : Nat) (derivs : Arr2 K) : Res (Arr2 K) := do
  let v ← ndu.rd p i
  derivs.wr i 0 v

/-- Innermost loop (bsplines_uniform.hpp lines 537-542): state `(a, d)`. -/
def coefInner (ndu : Arr2 K) (rk pk s1 s2 : Int) (j : Nat) (s : Arr2 K × K) : Res (Arr2 K × K) := do
  let x ← s.1.rd j s1
  let y ← s.1.rd (j - 1) s1
  let a ← s.1.wr j s2 ((x - y) / ((pk + 1 : Int) : K))
  let z ← a.rd j s2
  let w ← ndu.rd pk (rk + j)
  pure (a, s.2 + z * w)

/-- First block of an order (bsplines_uniform.hpp lines 530-533). -/
def coefFirst (ndu : Arr2 K) (r k rk pk s1 s2 : Int) (a : Arr2 K) : Res (Arr2 K × K) :=
  if k ≤ r then do
    let x ← a.rd 0 s1
    let a ← a.wr 0 s2 (x / ((pk + 1 : Int) : K))
    let z ← a.rd 0 s2
    let w ← ndu.rd pk rk
    pure (a, z * w)
  else pure (a, 0)

/-- Last block of an order (bsplines_uniform.hpp lines 543-546). -/
def coefLast (ndu : Arr2 K) (r k pk s1 s2 : Int) (s : Arr2 K × K) : Res (Arr2 K × K) :=
  if r ≤ pk then do
    let x ← s.1.rd (k - 1) s1
    let a ← s.1.wr k s2 (-x / ((pk + 1 : Int) : K))
    let z ← a.rd k s2
    let w ← ndu.rd pk r
    pure (a, s.2 + z * w)
  else pure s

/-- State of the loop over the orders of derivation: the arrays `a` and `derivs`, the columns `s1`
and `s2`. -/
structure CoefState (K : Type) where
  a : Arr2 K
  derivs : Arr2 K
  s1 : Int
  s2 : Int

/-- Loop over the orders of derivation `k` (bsplines_uniform.hpp lines 526-549). -/
def orderStep (p : Nat) (ndu : Arr2 K) (r : Nat) (k : Nat) (s : CoefState K) : Res (CoefState K) := do
  let rk : Int := (r : Int) - k
  let pk : Int := (p : Int) - k
  let f ← coefFirst ndu r k rk pk s.s1 s.s2 s.a
  let j1 : Int := if -1 < rk then 1 else -rk
  let j2 : Int := if (r : Int) - 1 ≤ pk then k else (p : Int) - r + 1
  let f ← forLoop (coefInner ndu rk pk s.s1 s.s2) j1.toNat (j2.toNat - j1.toNat) f
  let f ← coefLast ndu r k pk s.s1 s.s2 f
  let d ← s.derivs.wr r k f.2
  pure ⟨f.1, d, s.s2, s.s1⟩

/-- Loop over the B-splines `r` (bsplines_uniform.hpp lines 523-550). -/
def splineStep (p n : Nat) (ndu : Arr2 K) (r : Nat) (s : Arr2 K × Arr2 K) : Res (Arr2 K × Arr2 K) := do
  let a ← s.1.wr 0 0 1
  let t ← forLoop (orderStep p ndu r) 1 n ⟨a, s.2, 0, 1⟩
  pure (t.a, t.derivs)

/-- `derivs(i, k) *= d` (bsplines_uniform.hpp lines 558-560 and bsplines_non_uniform.hpp
lines 658-660). -/
def scaleEntry (k : Nat) (d : K) (i : Nat) (derivs : Arr2 K) : Res (Arr2 K) := do
  let v ← derivs.rd i k
  derivs.wr i k (v * d)

/-- Loop multiplying by the factors (bsplines_uniform.hpp lines 557-562): state `(derivs, d)`. -/
def scaleStep (p : Nat) (invDx : K) (k : Nat) (s : Arr2 K × K) : Res (Arr2 K × K) := do
  let a ← forLoop (scaleEntry k s.2) 0 s.1.rows s.1
  pure (a, s.2 * (((p : K) - (k : K)) * invDx))

/-- `eval_basis_and_n_derivs(derivs, x, n)` (bsplines_uniform.hpp lines 474-565).  In the last loop
`degree() - k` is computed on `std::size_t`; it is not negative as `k <= n <= degree()`. -/
def evalBasisAndNDerivs [FloorRing K] (u : UBS K) (derivs : Arr2 K) (x : K) (n : Nat) :
    Res (Arr2 K × Elem Unit) := do
  let p := u.degree
  let a ← u.rmin
  let b ← u.rmax
  checkInside x a b
  Res.guardAbort (decide (n ≤ p))
  Res.guardAbort (decide (derivs.rows = 1 + p))
  Res.guardAbort (decide (derivs.cols = 1 + n))
  let c ← u.getIcellAndOffset x
  let ndu ← (Arr2.uninit (p + 1) (p + 1)).wr 0 0 1
  let ndu ← forLoop (nduOuter c.2) 1 p ndu
  let derivs ← forLoop (copyZeroth p ndu) 0 ndu.cols derivs
  let s ← forLoop (splineStep p n ndu) 0 (p + 1) (Arr2.uninit (p + 1) 2, derivs)
  let s ← forLoop (scaleStep p u.invStep) 1 n (s.2, (p : K) * u.invStep)
  let e ← Elem.addInt u.ref (BitVec.ofInt 64 c.1)
  pure (s.1, e)

end UBS

/-! ## Non-uniform B-splines -/

/-- `NonUniformBSplines<CDim, D>::Impl` (bsplines_non_uniform.hpp lines 98-101), with the template
parameters `D` and `CDim::PERIODIC`. -/
structure NUBS (K : Type) where
  degree : Nat
  periodic : Bool
  knots : NonUniform Unit K
  knotDom : Dom Unit
  breakDom : Dom Unit
  ref : Elem Unit
  deriving DecidableEq

namespace NUBS

/-- Copy of the break points into the vector of knots (bsplines_non_uniform.hpp lines 433-437). -/
def fillBreaks (p : Nat) (breaks : List K) (ii : Nat) (knots : Arr K) : Res (Arr K) :=
  match breaks[ii]? with
  | some b => knots.wr (p + ii) b
  | none => .ub

/-- Extra knots of the periodic case (bsplines_non_uniform.hpp lines 445-448). -/
def fillPeriodic (p ncells : Nat) (period : K) (i : Nat) (knots : Arr K) : Res (Arr K) := do
  let x ← knots.rd (p + ncells - i)
  let knots ← knots.wr (p - i) (x - period)
  let y ← knots.rd (p + i)
  knots.wr (p + ncells + i) (y + period)

/-- Extra knots of the open case (bsplines_non_uniform.hpp lines 451-454). -/
def fillOpen (p npoints : Nat) (rmin rmax : K) (i : Nat) (knots : Arr K) : Res (Arr K) := do
  let knots ← knots.wr (p - i) rmin
  knots.wr (p + npoints - 1 + i) rmax

/-- Constructor (bsplines_non_uniform.hpp lines 414-457) with the `static_assert` of line 47.  The
number of break points and the degree are small enough for the index computations not to wrap. -/
def mk' (p : Nat) (per : Bool) (breaks : List K) : Res (NUBS K) := do
  Res.guardIll (decide (0 < p))
  let nb := breaks.length
  let knotDom ← Dom.ofSize (el1 0) (ve1 (BitVec.ofNat 64 (nb + 2 * p)))
  let breakDom ← Dom.ofSize (el1 (BitVec.ofNat 64 p)) (ve1 (BitVec.ofNat 64 nb))
  let size ← Dom.size knotDom
  let npoints := size.toNat - 2 * p
  let knots ← forLoop (fillBreaks p breaks) 0 nb (Arr.const (nb + 2 * p) 0)
  let rmin ← knots.rd p
  let rmax ← knots.rd (nb + p - 1)
  Res.guardAbort (decide (rmin < rmax))
  let knots ←
    if per then forLoop (fillPeriodic p (npoints - 1) (rmax - rmin)) 1 p knots
    else forLoop (fillOpen p npoints rmin rmax) 1 p knots
  let pts ← knots.toList
  let attr ← NonUniform.mk' () pts
  pure ⟨p, per, attr, knotDom, breakDom, Elem.createReference ()⟩

/-- `rmin()` (bsplines_non_uniform.hpp lines 279-282). -/
def rmin (u : NUBS K) : Res K := u.knots.coordinate (Dom.front u.breakDom)

/-- `rmax()` (bsplines_non_uniform.hpp lines 288-291). -/
def rmax (u : NUBS K) : Res K := do
  let e ← Dom.back u.breakDom
  u.knots.coordinate e

/-- `npoints()` (bsplines_non_uniform.hpp lines 345-348). -/
def npoints (u : NUBS K) : Res U64 := do
  let n ← Dom.size u.knotDom
  pure (n - 2 * BitVec.ofNat 64 u.degree)

/-- `ncells()` (bsplines_non_uniform.hpp lines 370-373). -/
def ncells (u : NUBS K) : Res U64 := do
  let n ← u.npoints
  pure (n - 1)

/-- `size()` (bsplines_non_uniform.hpp lines 310-313). -/
def size (u : NUBS K) : Res U64 := do
  let n ← u.ncells
  pure (BitVec.ofNat 64 u.degree + n)

/-- `nbasis()` (bsplines_non_uniform.hpp lines 357-360). -/
def nbasis (u : NUBS K) : Res U64 := do
  let n ← u.ncells
  pure (n + (if u.periodic then 0 else BitVec.ofNat 64 u.degree))

/-- `full_domain()` (bsplines_non_uniform.hpp lines 319-322). -/
def fullDomain (u : NUBS K) : Res (Dom Unit) := do
  let n ← u.size
  Dom.ofSize u.ref (ve1 n)

/-- `get_first_support_knot(ix)` (bsplines_non_uniform.hpp lines 255-259). -/
def firstSupportKnot (u : NUBS K) (ix : Elem Unit) : Res (Elem Unit) := do
  let v ← Elem.sub ix u.ref
  let k ← Vect.value v
  Elem.addInt (Dom.front u.knotDom) k

/-- `get_last_support_knot(ix)` (bsplines_non_uniform.hpp lines 270-275). -/
def lastSupportKnot (u : NUBS K) (ix : Elem Unit) : Res (Elem Unit) := do
  let e ← u.firstSupportKnot ix
  Elem.addVec e (ve1 (BitVec.ofNat 64 (u.degree + 1)))

/-- `get_first_bspline_in_cell(ic)` (bsplines_non_uniform.hpp lines 376-380). -/
def firstBsplineInCell (u : NUBS K) (ic : Elem Unit) : Res (Elem Unit) := do
  let v ← Elem.sub ic (Dom.front u.breakDom)
  let k ← Vect.value v
  Elem.addInt u.ref k

/-- `ddc::coordinate` of the knot with a given index. -/
def knot (u : NUBS K) (i : U64) : Res K := u.knots.coordinate (el1 i)

/-- The middle `low + (high - low) / 2` (bsplines_non_uniform.hpp lines 685, 692); the quotient of a
`ptrdiff_t` is truncated towards zero. -/
def mid (low high : U64) : U64 := low + BitVec.ofInt 64 ((high - low : BitVec 64).toInt.tdiv 2)

/-- The loop of the binary search (bsplines_non_uniform.hpp lines 686-693).  The width of the interval
decreases or the state remains the same for ever: with a fuel above the width, running out of fuel
means that the loop does not end, which is undefined behaviour for a loop without side effects. -/
def searchLoop (u : NUBS K) (x : K) : Nat → U64 → U64 → Res U64
  | 0, _, _ => .ub
  | fuel + 1, low, high => do
    let icell := mid low high
    let y ← u.knot icell
    if x < y then searchLoop u x fuel low icell
    else do
      let z ← u.knot (icell + 1)
      if z ≤ x then searchLoop u x fuel icell high
      else pure icell

/-- `find_cell_start(x)` (bsplines_non_uniform.hpp lines 667-695). -/
def findCellStart (u : NUBS K) (x : K) : Res (Elem Unit) := do
  let a ← u.rmin
  let b ← u.rmax
  UBS.checkInside x a b
  let fe := Dom.front u.breakDom
  let be ← Dom.back u.breakDom
  if x ≤ a then pure fe
  else if b ≤ x then Elem.subInt be 1
  else do
    let low ← uid1 fe
    let high ← uid1 be
    let c ← u.searchLoop x (high.toNat - low.toNat + 1) low high
    pure (el1 c)

/-- The assertions on the cell (bsplines_non_uniform.hpp lines 476-479, 514-517, 588-591). -/
def checkCell (u : NUBS K) (x : K) (icell : U64) : Res Unit := do
  let a ← u.rmin
  let b ← u.rmax
  let f ← uid1 (Dom.front u.breakDom)
  let l ← Dom.back u.breakDom
  let l ← uid1 l
  Res.guardAbort (decide (f.toNat ≤ icell.toNat))
  Res.guardAbort (decide (icell.toNat ≤ l.toNat))
  let y ← u.knot icell
  Res.guardAbort (decide (y - x ≤ (b - a) * tol))
  let z ← u.knot (icell + 1)
  Res.guardAbort (decide (x - z ≤ (b - a) * tol))

/-- State of the triangular scheme: `values`, `left`, `right`. -/
structure BasisState (K : Type) where
  values : Arr K
  left : Arr K
  right : Arr K

/-- Inner loop (bsplines_non_uniform.hpp lines 488-492 and 533-537): state `(values, saved)`. -/
def basisInner (left right : Arr K) (j : Nat) (r : Nat) (s : Arr K × K) : Res (Arr K × K) := do
  let v ← s.1.rd r
  let rr ← right.rd r
  let ll ← left.rd (j - r)
  let temp := v / (rr + ll)
  let a ← s.1.wr r (s.2 + rr * temp)
  pure (a, ll * temp)

/-- Outer loop (bsplines_non_uniform.hpp lines 484-494 and 529-539). -/
def basisOuter (u : NUBS K) (icell : U64) (x : K) (j : Nat) (s : BasisState K) :
    Res (BasisState K) := do
  let tl ← u.knot (icell - BitVec.ofNat 64 j)
  let left ← s.left.wr j (x - tl)
  let tr ← u.knot (icell + BitVec.ofNat 64 j + 1)
  let right ← s.right.wr j (tr - x)
  let t ← forLoop (basisInner left right j) 0 (j + 1) (s.values, 0)
  let values ← t.1.wr (j + 1) t.2
  pure ⟨values, left, right⟩

/-- `eval_basis(values, x)` (bsplines_non_uniform.hpp lines 459-498). -/
def evalBasis (u : NUBS K) (values : Arr K) (x : K) : Res (Arr K × Elem Unit) := do
  Res.guardAbort (decide (values.size = u.degree + 1))
  let a ← u.rmin
  let b ← u.rmax
  UBS.checkInside x a b
  let ic ← u.findCellStart x
  let icell ← uid1 ic
  u.checkCell x icell
  let values ← values.wr 0 1
  let s ← forLoop (u.basisOuter icell x) 0 u.degree
    ⟨values, Arr.uninit u.degree, Arr.uninit u.degree⟩
  let e ← u.firstBsplineInCell ic
  pure (s.values, e)

/-- `degree() * derivs[j] / (coordinate(icell + j + 1) - coordinate(icell + j + 1 - degree()))`
(bsplines_non_uniform.hpp lines 545-546, 550-551). -/
def derivTerm (u : NUBS K) (icell : U64) (j : Nat) (derivs : Arr K) : Res K := do
  let v ← derivs.rd j
  let y ← u.knot (icell + BitVec.ofNat 64 j + 1)
  let z ← u.knot (icell + BitVec.ofNat 64 j + 1 - BitVec.ofNat 64 u.degree)
  pure ((u.degree : K) * v / (y - z))

/-- Second loop of `eval_deriv` (bsplines_non_uniform.hpp lines 548-553): state `(derivs, saved)`. -/
def derivDiff (u : NUBS K) (icell : U64) (j : Nat) (s : Arr K × K) : Res (Arr K × K) := do
  let v ← u.derivTerm icell j s.1
  let a ← s.1.wr j (s.2 - v)
  pure (a, v)

/-- `eval_deriv(derivs, x)` (bsplines_non_uniform.hpp lines 500-557). -/
def evalDeriv (u : NUBS K) (derivs : Arr K) (x : K) : Res (Arr K × Elem Unit) := do
  let a ← u.rmin
  let b ← u.rmax
  UBS.checkInside x a b
  Res.guardAbort (decide (derivs.size = u.degree + 1))
  let ic ← u.findCellStart x
  let icell ← uid1 ic
  u.checkCell x icell
  let d ← derivs.wr 0 1
  let s ← forLoop (u.basisOuter icell x) 0 (u.degree - 1)
    ⟨d, Arr.uninit u.degree, Arr.uninit u.degree⟩
  let saved ← u.derivTerm icell 0 s.values
  let d ← s.values.wr 0 (-saved)
  let t ← forLoop (u.derivDiff icell) 1 (u.degree - 1) (d, saved)
  let d ← t.1.wr u.degree t.2
  let e ← u.firstBsplineInCell ic
  pure (d, e)

/-- State of the loop filling `ndu`. -/
structure NduState (K : Type) where
  ndu : Arr2 K
  left : Arr K
  right : Arr K

/-- Inner loop filling `ndu` (bsplines_non_uniform.hpp lines 607-616): state `(ndu, saved)`. -/
def nduInner (left right : Arr K) (j : Nat) (r : Nat) (s : Arr2 K × K) : Res (Arr2 K × K) := do
  let rr ← right.rd r
  let ll ← left.rd (j - r)
  let a ← s.1.wr r (j + 1) (1 / (rr + ll))
  let v ← a.rd j r
  let w ← a.rd r (j + 1)
  let temp := v * w
  let a ← a.wr (j + 1) r (s.2 + rr * temp)
  pure (a, ll * temp)

/-- Outer loop filling `ndu` (bsplines_non_uniform.hpp lines 603-618). -/
def nduOuter (u : NUBS K) (icell : U64) (x : K) (j : Nat) (s : NduState K) : Res (NduState K) := do
  let tl ← u.knot (icell - BitVec.ofNat 64 j)
  let left ← s.left.wr j (x - tl)
  let tr ← u.knot (icell + BitVec.ofNat 64 j + 1)
  let right ← s.right.wr j (tr - x)
  let t ← forLoop (nduInner left right j) 0 (j + 1) (s.ndu, 0)
  let ndu ← t.1.wr (j + 1) (j + 1) t.2
  pure ⟨ndu, left, right⟩

/-- Innermost loop (bsplines_non_uniform.hpp lines 639-644): state `(a, d)`. -/
def coefInner (ndu : Arr2 K) (rk pk s1 s2 : Int) (j : Nat) (s : Arr2 K × K) : Res (Arr2 K × K) := do
  let x ← s.1.rd j s1
  let y ← s.1.rd (j - 1) s1
  let q ← ndu.rd (rk + j) (pk + 1)
  let a ← s.1.wr j s2 ((x - y) * q)
  let z ← a.rd j s2
  let w ← ndu.rd pk (rk + j)
  pure (a, s.2 + z * w)

/-- First block of an order (bsplines_non_uniform.hpp lines 632-636). -/
def coefFirst (ndu : Arr2 K) (r k rk pk s1 s2 : Int) (a : Arr2 K) : Res (Arr2 K × K) :=
  if k ≤ r then do
    let x ← a.rd 0 s1
    let q ← ndu.rd rk (pk + 1)
    let a ← a.wr 0 s2 (x * q)
    let z ← a.rd 0 s2
    let w ← ndu.rd pk rk
    pure (a, z * w)
  else pure (a, 0)

/-- Last block of an order (bsplines_non_uniform.hpp lines 645-649). -/
def coefLast (ndu : Arr2 K) (r k pk s1 s2 : Int) (s : Arr2 K × K) : Res (Arr2 K × K) :=
  if r ≤ pk then do
    let x ← s.1.rd (k - 1) s1
    let q ← ndu.rd r (pk + 1)
    let a ← s.1.wr k s2 (-x * q)
    let z ← a.rd k s2
    let w ← ndu.rd pk r
    pure (a, s.2 + z * w)
  else pure s

/-- Loop over the orders of derivation `k` (bsplines_non_uniform.hpp lines 629-652). -/
def orderStep (p : Nat) (ndu : Arr2 K) (r : Nat) (k : Nat) (s : UBS.CoefState K) :
    Res (UBS.CoefState K) := do
  let rk : Int := (r : Int) - k
  let pk : Int := (p : Int) - k
  let f ← coefFirst ndu r k rk pk s.s1 s.s2 s.a
  let j1 : Int := if -1 < rk then 1 else -rk
  let j2 : Int := if (r : Int) - 1 ≤ pk then k else (p : Int) - r + 1
  let f ← forLoop (coefInner ndu rk pk s.s1 s.s2) j1.toNat (j2.toNat - j1.toNat) f
  let f ← coefLast ndu r k pk s.s1 s.s2 f
  let d ← s.derivs.wr r k f.2
  pure ⟨f.1, d, s.s2, s.s1⟩

/-- Loop over the B-splines `r` (bsplines_non_uniform.hpp lines 625-653). -/
def splineStep (p n : Nat) (ndu : Arr2 K) (r : Nat) (s : Arr2 K × Arr2 K) : Res (Arr2 K × Arr2 K) := do
  let a ← s.1.wr 0 0 1
  let t ← forLoop (orderStep p ndu r) 1 n ⟨a, s.2, 0, 1⟩
  pure (t.a, t.derivs)

/-- Loop multiplying by the factors (bsplines_non_uniform.hpp lines 656-662): state `(derivs, r)`, where
`r` is an `int`; `r *= degree() - k` is computed on `std::size_t` and converted back. -/
def scaleStep (p : Nat) (k : Nat) (s : Arr2 K × BitVec 32) : Res (Arr2 K × BitVec 32) := do
  let a ← forLoop (UBS.scaleEntry k ((s.2.toInt : Int) : K)) 0 s.1.rows s.1
  pure (a, Periodic.toInt32 (BitVec.ofInt 64 s.2.toInt * (BitVec.ofNat 64 p - BitVec.ofNat 64 k)))

/-- `eval_basis_and_n_derivs(derivs, x, n)` (bsplines_non_uniform.hpp lines 559-665). -/
def evalBasisAndNDerivs (u : NUBS K) (derivs : Arr2 K) (x : K) (n : Nat) :
    Res (Arr2 K × Elem Unit) := do
  let p := u.degree
  let a ← u.rmin
  let b ← u.rmax
  UBS.checkInside x a b
  Res.guardAbort (decide (n ≤ p))
  Res.guardAbort (decide (derivs.rows = 1 + p))
  Res.guardAbort (decide (derivs.cols = 1 + n))
  let ic ← u.findCellStart x
  let icell ← uid1 ic
  u.checkCell x icell
  let ndu ← (Arr2.uninit (p + 1) (p + 1)).wr 0 0 1
  let t ← forLoop (u.nduOuter icell x) 0 p ⟨ndu, Arr.uninit p, Arr.uninit p⟩
  let derivs ← forLoop (UBS.copyZeroth p t.ndu) 0 (p + 1) derivs
  let s ← forLoop (splineStep p n t.ndu) 0 (p + 1) (Arr2.uninit (p + 1) 2, derivs)
  let s ← forLoop (scaleStep p) 1 n (s.2, BitVec.ofNat 32 p)
  let e ← u.firstBsplineInCell ic
  pure (s.1, e)

end NUBS

end

end DDC
