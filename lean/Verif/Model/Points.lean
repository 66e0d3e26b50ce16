import Verif.Model.BSplines

/-!
# Interpolation points

Model of `/repo/src/ddc/kernels/splines/greville_interpolation_points.hpp`,
`/repo/src/ddc/kernels/splines/knots_as_interpolation_points.hpp` and
`/repo/src/ddc/kernels/splines/spline_builder_closures.hpp`.

A `std::vector<double>` is an array `Arr`; `v[i]` outside of its bounds is undefined behaviour.  The
elements of a `std::vector<double>(n)` are `0`.
-/

namespace DDC

/-- `SplineBuilderClosure` (spline_builder_closures.hpp lines 18-23). -/
inductive Closure
  | periodic
  | hermite
  | homogeneousHermite
  | greville
  deriving DecidableEq, Repr

/-- `n_boundary_equations(sbc, degree)` (spline_builder_closures.hpp lines 43-55). -/
def Closure.equations (c : Closure) (degree : Nat) : Nat :=
  if c = .periodic ∨ c = .greville then 0 else degree / 2

/-- `host_for_each` on a domain with one dimension (for_each.hpp lines 19-33, 59-63); the general loop is
`Support.forEach` in `Model/ForEach.lean`, and `hostForEach1_eq` relates them. -/
def hostForEach1 {σ : Type} (d : Dom Unit) (f : Elem Unit → σ → Res σ) (s : σ) : Res σ := do
  let x ← Dom.extents d
  let n ← Vect.value x
  forLoop (fun i s => do
    let e ← Dom.at' d (ve1 (BitVec.ofNat 64 i))
    f e s) 0 n.toInt.toNat s

section

variable {K : Type} [Field K] [LinearOrder K]

/-- `v[i] += x` -/
def Arr.addTo (a : Arr K) (i : Nat) (x : K) : Res (Arr K) := do
  let v ← a.rd i
  a.wr i (v + x)

/-- `v[i] /= x` -/
def Arr.divBy (a : Arr K) (i : Nat) (x : K) : Res (Arr K) := do
  let v ← a.rd i
  a.wr i (v / x)

/-- `a - b` of two elements used as an index of a vector. -/
def indexOf (a b : Elem Unit) : Res Nat := do
  let v ← Elem.sub a b
  let k ← Vect.value v
  pure k.toNat

/-! ## Greville points, uniform B-splines -/

namespace UBS

/-- `shift` (greville_interpolation_points.hpp line 52). -/
def shift (u : UBS K) : K := if u.degree % 2 = 0 then 1 / 2 else 0

/-- `dx` (greville_interpolation_points.hpp lines 53-55). -/
def dx (u : UBS K) : Res K := do
  let b ← u.rmax
  let a ← u.rmin
  let n ← u.ncells
  pure ((b - a) / (n.toNat : K))

/-- `nbasis() - N_BE` (greville_interpolation_points.hpp lines 62, 179, 291). -/
def grevilleCount (u : UBS K) (lo up : Closure) : Res U64 := do
  let nb ← u.nbasis
  pure (nb - BitVec.ofNat 64 (lo.equations u.degree + up.equations u.degree))

/-- `uniform_greville_points` for a uniform sampling (greville_interpolation_points.hpp
lines 56-60). -/
def grevilleUniform (u : UBS K) : Res (Uniform Unit K) := do
  let dx ← u.dx
  let a ← u.rmin
  Uniform.mk' () (a + u.shift * dx) dx

/-- `uniform_greville_points` for a non-uniform sampling (greville_interpolation_points.hpp
lines 61-68). -/
def grevilleGrid (u : UBS K) (lo up : Closure) : Res (NonUniform Unit K) := do
  let dx ← u.dx
  let np ← u.grevilleCount lo up
  let pts ← forLoop (fun i pts => do
    let a ← u.rmin
    Arr.wr pts i (a + (u.shift + (i : K)) * dx)) 0 np.toNat (Arr.const np.toNat 0)
  let l ← pts.toList
  NonUniform.mk' () l

/-- `is_uniform_discrete_dimension_v` (greville_interpolation_points.hpp lines 138-139). -/
def grevilleIsUniform (u : UBS K) (lo up : Closure) : Bool :=
  (lo.equations u.degree != 0 && up.equations u.degree != 0) || u.periodic

/-- A point at the lower edge (greville_interpolation_points.hpp lines 184-199). -/
def grevilleLower (u : UBS K) (i : Nat) (pts : Arr K) : Res (Arr K) := do
  let a ← u.rmin
  let pts ← pts.wr i (((u.degree - i : Nat) : K) * a)
  let l ← u.lastSupportKnot (el1 (BitVec.ofNat 64 i))
  let f ← Elem.subVec l (ve1 (BitVec.ofNat 64 i))
  let d ← Dom.ofSize f (ve1 (BitVec.ofNat 64 i))
  let pts ← hostForEach1 d (fun ik pts => do
    let x ← u.knots.coordinate ik
    pts.addTo i x) pts
  pts.divBy i (u.degree : K)

/-- A point at the upper edge (greville_interpolation_points.hpp lines 220-235). -/
def grevilleUpper (u : UBS K) (np : U64) (i : Nat) (pts : Arr K) : Res (Arr K) := do
  let j := (np - 1 - BitVec.ofNat 64 i).toNat
  let b ← u.rmax
  let pts ← pts.wr j (((u.degree - i : Nat) : K) * b)
  let nb ← u.nbasis
  let l ← u.firstSupportKnot (el1 (nb - 1 - BitVec.ofNat 64 i))
  let f ← Elem.addInt l 1
  let d ← Dom.ofSize f (ve1 (BitVec.ofNat 64 i))
  let pts ← hostForEach1 d (fun ik pts => do
    let x ← u.knots.coordinate ik
    pts.addTo j x) pts
  pts.divBy j (u.degree : K)

/-- The central points (greville_interpolation_points.hpp lines 205-216). -/
def grevilleCentral (u : UBS K) (wo : Uniform Unit K) (lo : Closure) (pts : Arr K) : Res (Arr K) := do
  let nStart : Nat := if lo = .greville then u.degree / 2 + 1 else 1
  let n ← u.ncells
  let size := n + 1 - 2
  let d ← Dom.ofSize (el1 1) (ve1 size)
  hostForEach1 d (fun ip pts => do
    let v ← Elem.sub ip (el1 1)
    let k ← Vect.addSize v (BitVec.ofNat 64 nStart)
    let k ← Vect.value k
    let x ← wo.coordinate ip
    Arr.wr pts k.toNat x) pts

/-- The points at the lower edge (greville_interpolation_points.hpp lines 182-203). -/
def grevilleLowers (u : UBS K) (wo : Uniform Unit K) (lo : Closure) (pts : Arr K) : Res (Arr K) :=
  if lo = .greville then forLoop u.grevilleLower 0 (u.degree / 2 + 1) pts
  else do
    let x ← wo.coordinate (el1 0)
    pts.wr 0 x

/-- The points at the upper edge (greville_interpolation_points.hpp lines 218-241). -/
def grevilleUppers (u : UBS K) (wo : Uniform Unit K) (up : Closure) (np : U64) (pts : Arr K) :
    Res (Arr K) :=
  if up = .greville then forLoop (u.grevilleUpper np) 0 (u.degree / 2 + 1) pts
  else do
    let n ← u.ncells
    let x ← wo.coordinate (el1 (n - 1 + BitVec.ofNat 64 (u.degree % 2)))
    pts.wr (np - 1).toNat x

/-- `get_sampling` of a non-uniform sampling for uniform B-splines (greville_interpolation_points.hpp
lines 172-242). -/
def grevilleMixed (u : UBS K) (lo up : Closure) : Res (NonUniform Unit K) := do
  let wo ← u.grevilleUniform
  let nb ← u.nbasis
  let be := lo.equations u.degree + up.equations u.degree
  Res.guardAbort (decide (0 < be → BitVec.ofNat 64 be ≤ nb))
  let np ← u.grevilleCount lo up
  let pts ← u.grevilleLowers wo lo (Arr.const np.toNat 0)
  let pts ← u.grevilleCentral wo lo pts
  let pts ← u.grevilleUppers wo up np pts
  let l ← pts.toList
  NonUniform.mk' () l

/-- `get_domain` (greville_interpolation_points.hpp lines 288-295). -/
def grevilleDomain (u : UBS K) (lo up : Closure) : Res (Dom Unit) := do
  let np ← u.grevilleCount lo up
  Dom.ofSize (el1 0) (ve1 np)

end UBS

/-! ## Greville points, non-uniform B-splines -/

namespace NUBS

/-- `length()` (bsplines_non_uniform.hpp lines 306-309). -/
def length (u : NUBS K) : Res K := do
  let b ← u.rmax
  let a ← u.rmin
  pure (b - a)

/-- `nbasis() - N_BE` (greville_interpolation_points.hpp line 291). -/
def grevilleCount (u : NUBS K) (lo up : Closure) : Res U64 := do
  let nb ← u.nbasis
  pure (nb - BitVec.ofNat 64 (lo.equations u.degree + up.equations u.degree))

/-- A Greville point (greville_interpolation_points.hpp lines 94-104). -/
def grevilleOne (u : NUBS K) (ib0 ib : Elem Unit) (pts : Arr K) : Res (Arr K) := do
  let i ← indexOf ib ib0
  let pts ← pts.wr i 0
  let f ← u.firstSupportKnot ib
  let f ← Elem.addInt f 1
  let d ← Dom.ofSize f (ve1 (BitVec.ofNat 64 u.degree))
  let pts ← hostForEach1 d (fun ik pts => do
    let x ← u.knots.coordinate ik
    pts.addTo i x) pts
  pts.divBy i (u.degree : K)

/-- Loop counting the points below `rmin` (greville_interpolation_points.hpp lines 109-116): the number
and the shifted points.  The assertion ends it after at most `degree` iterations. -/
def countLoop (pts : Arr K) (a len : K) (p : Nat) : Nat → Nat → Arr K → Res (Nat × Arr K)
  | 0, _, _ => .ub
  | fuel + 1, k, temp => do
    let x ← pts.rd k
    if x < a then do
      Res.guardAbort (decide (k < p))
      let temp ← temp.wr k (x + len)
      countLoop pts a len p fuel (k + 1) temp
    else pure (k, temp)

/-- The periodic shift (greville_interpolation_points.hpp lines 107-129). -/
def grevillePeriodic (u : NUBS K) (n : Nat) (pts : Arr K) : Res (Arr K) := do
  let a ← u.rmin
  let len ← u.length
  let nb ← u.nbasis
  let r ← countLoop pts a len u.degree (u.degree + 1) 0 (Arr.const u.degree 0)
  let m := (nb - BitVec.ofNat 64 r.1).toNat
  let pts ← forLoop (fun i pts => do
    let x ← Arr.rd pts (i + r.1)
    Arr.wr pts i x) 0 m pts
  let pts ← forLoop (fun i pts => do
    let x ← r.2.rd i
    Arr.wr pts (nb - BitVec.ofNat 64 r.1 + BitVec.ofNat 64 i).toNat x) 0 r.1 pts
  let x ← pts.rd 0
  pts.wr (n - 1) (x + len)

/-- `non_uniform_greville_points` (greville_interpolation_points.hpp lines 71-132). -/
def grevilleAll (u : NUBS K) : Res (NonUniform Unit K) := do
  let nb ← u.nbasis
  let n := (if u.periodic then nb + 1 else nb).toNat
  let full ← u.fullDomain
  let d ← Dom.takeFirst full (ve1 nb)
  let pts ← hostForEach1 d (u.grevilleOne (Dom.front d)) (Arr.const n 0)
  let pts ← if u.periodic then u.grevillePeriodic n pts else pure pts
  let l ← pts.toList
  NonUniform.mk' () l

/-- `get_sampling` for non-uniform B-splines (greville_interpolation_points.hpp lines 243-268). -/
def grevilleSampling (u : NUBS K) (lo up : Closure) : Res (NonUniform Unit K) :=
  let be := lo.equations u.degree + up.equations u.degree
  if be = 0 then u.grevilleAll
  else do
    let wo ← u.grevilleAll
    let size := (wo.size - BitVec.ofNat 64 be).toNat
    let start := el1 (BitVec.ofNat 64 (lo.equations u.degree))
    let d ← Dom.ofSize start (ve1 (BitVec.ofNat 64 size))
    let x ← wo.coordinate (Dom.front d)
    let pts ← (Arr.const size 0).wr 0 x
    let inner ← Dom.remove d (ve1 1) (ve1 1)
    let pts ← hostForEach1 inner (fun ip pts => do
      let i ← indexOf ip start
      let x ← wo.coordinate ip
      Arr.wr pts i x) pts
    let bk ← Dom.back d
    let x ← wo.coordinate bk
    let pts ← pts.wr (BitVec.ofNat 64 size - 1).toNat x
    let l ← pts.toList
    NonUniform.mk' () l

/-- `get_domain` (greville_interpolation_points.hpp lines 288-295). -/
def grevilleDomain (u : NUBS K) (lo up : Closure) : Res (Dom Unit) := do
  let np ← u.grevilleCount lo up
  Dom.ofSize (el1 0) (ve1 np)

end NUBS

/-! ## Knots as interpolation points -/

/-- `static_assert`s of `KnotsAsInterpolationPoints` (knots_as_interpolation_points.hpp lines 39-40). -/
def knotsClosures (lo up : Closure) : Res Unit :=
  Res.guardIll (decide (lo ≠ .greville ∧ up ≠ .greville))

/-- `get_sampling` of a uniform sampling (knots_as_interpolation_points.hpp lines 53-58). -/
def knotsUniform (a b : K) (ncells : U64) : Res (Uniform Unit K) := do
  let r ← Uniform.init () a b (ve1 (ncells + 1))
  pure r.1

/-- `get_sampling` of a non-uniform sampling (knots_as_interpolation_points.hpp lines 59-70). -/
def knotsNonUniform (breakDom : Dom Unit) (coordinate : Elem Unit → Res K) : Res (NonUniform Unit K) := do
  let n ← Dom.size breakDom
  let pts ← hostForEach1 breakDom (fun ik pts => do
    let i ← indexOf ik (Dom.front breakDom)
    let x ← coordinate ik
    Arr.wr pts i x) (Arr.const n.toNat 0)
  let l ← pts.toList
  NonUniform.mk' () l

/-- `get_domain` (knots_as_interpolation_points.hpp lines 84-91): the number of points is an `int`. -/
def knotsDomain (ncells : U64) (periodic : Bool) : Res (Dom Unit) :=
  let npoints := Periodic.toInt32 (ncells + (if periodic then 0 else 1))
  Dom.ofSize (el1 0) (ve1 (BitVec.ofInt 64 npoints.toInt))

end

end DDC
