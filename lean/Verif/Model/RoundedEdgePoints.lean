import Verif.Model.RoundedPoints

/-!
# Greville points of periodic non-uniform B-splines and at the edges of uniform ones, with rounding

As `NUBS.grevilleAll` and `UBS.grevilleMixed` in `Verif.Model.Points`, with a rounding after every operation.
-/

namespace DDC.Rounded

variable (fl : Rat → Rat)

/-- `length()` (bsplines_non_uniform.hpp lines 306-309). -/
def nubsLength (u : NUBS Rat) : Res Rat := do
  let b ← u.rmax
  let a ← u.rmin
  pure (fl (b - a))

/-- Loop counting the points below `rmin` (greville_interpolation_points.hpp lines 108-115): the number and the
shifted points.  The assertion ends it after at most `degree` iterations. -/
def countLoop (pts : Arr Rat) (a len : Rat) (p : Nat) : Nat → Nat → Arr Rat → Res (Nat × Arr Rat)
  | 0, _, _ => .ub
  | fuel + 1, k, temp => do
    let x ← pts.rd k
    if x < a then do
      Res.guardAbort (decide (k < p))
      let temp ← temp.wr k (fl (x + len))
      countLoop pts a len p fuel (k + 1) temp
    else pure (k, temp)

/-- The periodic shift (greville_interpolation_points.hpp lines 106-128). -/
def grevillePeriodic (u : NUBS Rat) (n : Nat) (pts : Arr Rat) : Res (Arr Rat) := do
  let a ← u.rmin
  let len ← nubsLength fl u
  let nb ← u.nbasis
  let r ← countLoop fl pts a len u.degree (u.degree + 1) 0 (Arr.const u.degree 0)
  let m := (nb - BitVec.ofNat 64 r.1).toNat
  let pts ← forLoop (fun i pts => do
    let x ← Arr.rd pts (i + r.1)
    Arr.wr pts i x) 0 m pts
  let pts ← forLoop (fun i pts => do
    let x ← r.2.rd i
    Arr.wr pts (nb - BitVec.ofNat 64 r.1 + BitVec.ofNat 64 i).toNat x) 0 r.1 pts
  let x ← pts.rd 0
  pts.wr (n - 1) (fl (x + len))

/-- `non_uniform_greville_points` if the B-splines are periodic (greville_interpolation_points.hpp lines
70-131). -/
def grevilleClosed (u : NUBS Rat) : Res (NonUniform Unit Rat) := do
  let nb ← u.nbasis
  let n := (nb + 1).toNat
  let full ← u.fullDomain
  let d ← Dom.takeFirst full (ve1 nb)
  let pts ← hostForEach1 d (grevilleOne fl u (Dom.front d)) (Arr.const n 0)
  let pts ← grevillePeriodic fl u n pts
  let l ← pts.toList
  NonUniform.mk' () l

/-- `get_sampling` of non-uniform B-splines (greville_interpolation_points.hpp lines 243-268): the points beyond the number of
interpolation points are left out at both ends.  No arithmetic on coordinates. -/
def grevilleNonUniform (u : NUBS Rat) (lo up : Closure) : Res (NonUniform Unit Rat) :=
  let be := lo.equations u.degree + up.equations u.degree
  let all := if u.periodic then grevilleClosed fl u else grevilleOpen fl u
  if be = 0 then all
  else do
    let wo ← all
    let size := (wo.size - BitVec.ofNat 64 be).toNat
    let start := el1 (BitVec.ofNat 64 (lo.equations u.degree))
    let d ← Dom.ofSize start (ve1 (BitVec.ofNat 64 size))
    let x ← wo.coordinate (Dom.front d)
    let pts ← (Arr.const size 0).wr 0 x
    let inner ← Dom.remove d (ve1 1) (ve1 1)
    let pts ← hostForEach1 inner (fun ip pts => do
      let i ← indexOf ip start
      let x ← wo.coordinate ip
      Arr.wr pts i x) pts
    let bk ← Dom.back d
    let x ← wo.coordinate bk
    let pts ← pts.wr (BitVec.ofNat 64 size - 1).toNat x
    let l ← pts.toList
    NonUniform.mk' () l

namespace Knots

/-- A point at the lower edge (greville_interpolation_points.hpp lines 184-199).  The numbers of the knots are simplified:
`UBS.grevilleLower` has the calls that give them.  The conversions of the degree to `double` are exact. -/
def grevilleLower (k : Knots) (i : Nat) (pts : Arr Rat) : Res (Arr Rat) := do
  let pts ← pts.wr i (fl (((k.p - i : Nat) : Rat) * k.rmin fl))
  let pts ← forLoop (fun j pts => addTo fl pts i (k.coordinate fl (k.p + 1 + j))) 0 i pts
  divBy fl pts i (k.p : Rat)

/-- A point at the upper edge (greville_interpolation_points.hpp lines 220-235).  The numbers of the knots are simplified:
`UBS.grevilleUpper` has the calls that give them. -/
def grevilleUpper (k : Knots) (np : Nat) (i : Nat) (pts : Arr Rat) : Res (Arr Rat) := do
  let pts ← pts.wr (np - 1 - i) (fl (((k.p - i : Nat) : Rat) * k.rmax fl))
  let pts ← forLoop (fun j pts => addTo fl pts (np - 1 - i) (k.coordinate fl (k.n + k.p - i + j))) 0 i pts
  divBy fl pts (np - 1 - i) (k.p : Rat)

/-- The points at the lower edge (greville_interpolation_points.hpp lines 182-203). -/
def grevilleLowers (k : Knots) (lo : Closure) (pts : Arr Rat) : Res (Arr Rat) :=
  if lo = .greville then forLoop (k.grevilleLower fl) 0 (k.p / 2 + 1) pts
  else pts.wr 0 (k.grevillePoint fl 0)

/-- The central points (greville_interpolation_points.hpp lines 205-216); `i` is `ip - domain_start`. -/
def grevilleCentral (k : Knots) (lo : Closure) (pts : Arr Rat) : Res (Arr Rat) :=
  let nStart : Nat := if lo = .greville then k.p / 2 + 1 else 1
  forLoop (fun i pts => Arr.wr pts (i + nStart) (k.grevillePoint fl (1 + i))) 0 (k.n + 1 - 2) pts

/-- The points at the upper edge (greville_interpolation_points.hpp lines 218-241). -/
def grevilleUppers (k : Knots) (up : Closure) (np : Nat) (pts : Arr Rat) : Res (Arr Rat) :=
  if up = .greville then forLoop (k.grevilleUpper fl np) 0 (k.p / 2 + 1) pts
  else pts.wr (np - 1) (k.grevillePoint fl (k.n - 1 + k.p % 2))

/-- `get_sampling` of a non-uniform sampling for uniform B-splines that are not periodic
(greville_interpolation_points.hpp lines 172-242). -/
def grevilleMixed (k : Knots) (lo up : Closure) : Res (NonUniform Unit Rat) := do
  let be := lo.equations k.p + up.equations k.p
  Res.guardAbort (decide (0 < be → be ≤ k.n + k.p))
  let np := k.n + k.p - be
  let pts ← k.grevilleLowers fl lo (Arr.const np 0)
  let pts ← k.grevilleCentral fl lo pts
  let pts ← k.grevilleUppers fl up np pts
  let l ← pts.toList
  NonUniform.mk' () l

end Knots

end DDC.Rounded
