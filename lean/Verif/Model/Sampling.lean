import Verif.Model.Domain
import Mathlib.Algebra.Order.Field.Basic

/-!
# Point samplings

Model of `/repo/src/ddc/uniform_point_sampling.hpp`, `/repo/src/ddc/non_uniform_point_sampling.hpp`
and `/repo/src/ddc/periodic_sampling.hpp`.

`Real` and `Coordinate<CDim>` (one continuous dimension) are an ordered field `K`: rounding, NaN and
infinities are not modelled.  Functions that read the registered attributes through
`discrete_space<DDim>()` take these attributes as an argument.  Default constructors, copies to
another memory space and stream output are not modelled.
-/

namespace DDC

variable {τ K : Type} [DecidableEq τ]

/-- `value()` of a one-tag vector, also its implicit conversion to `ptrdiff_t`
(discrete_vector.hpp lines 235-243, 375-379). -/
def Vect.value (v : Vect τ) : Res I64 :=
  match v with
  | [(_, a)] => .ok a
  | _ => .ill

/-- `v + n` for one tag and a `std::size_t` `n` (discrete_vector.hpp lines 147-153): the sum is
computed on `size_t`, modulo `2^64`. -/
def Vect.addSize (v : Vect τ) (n : U64) : Res (Vect τ) :=
  match v with
  | [(t, a)] => .ok [(t, a + n)]
  | _ => .ill

section Field

variable [Field K] [LinearOrder K]

/-! ## Uniform sampling -/

/-- `UniformPointSampling::Impl` (uniform_point_sampling.hpp lines 52-56). -/
structure Uniform (τ K : Type) where
  origin : K
  step : K
  ref : Elem τ
  deriving DecidableEq

namespace Uniform

/-- Constructor (uniform_point_sampling.hpp lines 91-97). -/
def mk' (t : τ) (origin step : K) : Res (Uniform τ K) := do
  Res.guardAbort (decide (0 < step))
  pure ⟨origin, step, Elem.createReference t⟩

/-- `coordinate(icoord)` (uniform_point_sampling.hpp lines 124-128). -/
def coordinate (u : Uniform τ K) (i : Elem τ) : Res K := do
  let v ← Elem.sub i u.ref
  let k ← Vect.value v
  pure (u.origin + (k.toInt : K) * u.step)

/-- `init(a, b, n)` (uniform_point_sampling.hpp lines 140-150). -/
def init (t : τ) (a b : K) (n : Vect τ) : Res (Uniform τ K × Dom τ) := do
  Res.guardAbort (decide (a < b))
  let x ← Vect.value n
  Res.guardAbort (decide (1 < x.toInt))
  let m ← Vect.subInt n 1
  let y ← Vect.value m
  let disc ← mk' t a ((b - a) / (y.toInt : K))
  let dom ← Dom.ofSize disc.ref n
  pure (disc, dom)

/-- `init_ghosted(a, b, n, n_ghosts_before, n_ghosts_after)` (uniform_point_sampling.hpp
lines 163-192): attributes, main domain, ghosted domain, pre-ghost and post-ghost domains. -/
def initGhosted (t : τ) (a b : K) (n g1 g2 : Vect τ) :
    Res (Uniform τ K × Dom τ × Dom τ × Dom τ × Dom τ) := do
  Res.guardAbort (decide (a < b))
  let x ← Vect.value n
  Res.guardAbort (decide (1 < x.toInt))
  let m ← Vect.subInt n 1
  let y ← Vect.value m
  let s := (b - a) / (y.toInt : K)
  let z ← Vect.value g1
  let disc ← mk' t (a - (z.toInt : K) * s) s
  let n1 ← Vect.add n g1
  let n2 ← Vect.add n1 g2
  let ghosted ← Dom.ofSize disc.ref n2
  let pre ← Dom.takeFirst ghosted g1
  let main ← Dom.remove ghosted g1 g2
  let post ← Dom.takeLast ghosted g2
  pure (disc, main, ghosted, pre, post)

/-- `init_ghosted(a, b, n, n_ghosts)` (uniform_point_sampling.hpp lines 204-218). -/
def initGhosted1 (t : τ) (a b : K) (n g : Vect τ) :
    Res (Uniform τ K × Dom τ × Dom τ × Dom τ × Dom τ) := initGhosted t a b n g g

/-- `distance_at_left(i)` (uniform_point_sampling.hpp lines 273-278). -/
def distanceAtLeft (u : Uniform τ K) (_ : Elem τ) : K := u.step

/-- `distance_at_right(i)` (uniform_point_sampling.hpp lines 280-285). -/
def distanceAtRight (u : Uniform τ K) (_ : Elem τ) : K := u.step

/-- `rmin(d)` (uniform_point_sampling.hpp lines 287-292). -/
def rmin (u : Uniform τ K) (d : Dom τ) : Res K := u.coordinate (Dom.front d)

/-- `rmax(d)` (uniform_point_sampling.hpp lines 294-299). -/
def rmax (u : Uniform τ K) (d : Dom τ) : Res K := do
  let e ← Dom.back d
  u.coordinate e

/-- `rlength(d)` (uniform_point_sampling.hpp lines 301-306). -/
def rlength (u : Uniform τ K) (d : Dom τ) : Res K := do
  let x ← u.rmax d
  let y ← u.rmin d
  pure (x - y)

end Uniform

/-! ## Non-uniform sampling -/

/-- `std::is_sorted` on coordinates: no element is less than its predecessor. -/
def isSorted : List K → Bool
  | x :: y :: l => !decide (y < x) && isSorted (y :: l)
  | _ => true

/-- `NonUniformPointSampling::Impl` (non_uniform_point_sampling.hpp lines 55-57). -/
structure NonUniform (τ K : Type) where
  points : List K
  ref : Elem τ
  deriving DecidableEq

namespace NonUniform

/-- Constructor from a pair of iterators, a range or a brace list
(non_uniform_point_sampling.hpp lines 71-95). -/
def mk' (t : τ) (pts : List K) : Res (NonUniform τ K) :=
  if isSorted pts then .ok ⟨pts, Elem.createReference t⟩ else .throw

/-- `size()` (non_uniform_point_sampling.hpp lines 114-117). -/
def size (u : NonUniform τ K) : U64 := BitVec.ofNat 64 u.points.length

/-- Read of the view `m_points` at a `ptrdiff_t` index; outside of the view it is undefined. -/
def read (pts : List K) (k : I64) : Res K :=
  if k.toInt < 0 then .ub
  else match pts[k.toInt.toNat]? with
    | some x => .ok x
    | none => .ub

/-- `coordinate(icoord)` (non_uniform_point_sampling.hpp lines 126-130). -/
def coordinate (u : NonUniform τ K) (i : Elem τ) : Res K := do
  let v ← Elem.sub i u.ref
  let k ← Vect.value v
  read u.points k

/-- `init(points)` (non_uniform_point_sampling.hpp lines 138-147). -/
def init (t : τ) (pts : List K) : Res (NonUniform τ K × Dom τ) := do
  Res.guardAbort (!pts.isEmpty)
  let n : Vect τ := [(t, BitVec.ofNat 64 pts.length)]
  let disc ← mk' t pts
  let dom ← Dom.ofSize disc.ref n
  pure (disc, dom)

/-- `init_ghosted(domain_r, pre_ghost_r, post_ghost_r)` (non_uniform_point_sampling.hpp
lines 155-191): attributes, main domain, ghosted domain, pre-ghost and post-ghost domains. -/
def initGhosted (t : τ) (dom pre post : List K) :
    Res (NonUniform τ K × Dom τ × Dom τ × Dom τ × Dom τ) := do
  Res.guardAbort (!dom.isEmpty)
  let n : Vect τ := [(t, BitVec.ofNat 64 dom.length)]
  let g1 : Vect τ := [(t, BitVec.ofNat 64 pre.length)]
  let g2 : Vect τ := [(t, BitVec.ofNat 64 post.length)]
  let disc ← mk' t (pre ++ dom ++ post)
  let n1 ← Vect.add n g1
  let n2 ← Vect.add n1 g2
  let ghosted ← Dom.ofSize disc.ref n2
  let preD ← Dom.takeFirst ghosted g1
  let main ← Dom.remove ghosted g1 g2
  let postD ← Dom.takeLast ghosted g2
  pure (disc, main, ghosted, preD, postD)

/-- `distance_at_left(i)` (non_uniform_point_sampling.hpp lines 225-230). -/
def distanceAtLeft (u : NonUniform τ K) (i : Elem τ) : Res K := do
  let x ← u.coordinate i
  let j ← Elem.subInt i 1
  let y ← u.coordinate j
  pure (x - y)

/-- `distance_at_right(i)` (non_uniform_point_sampling.hpp lines 232-237). -/
def distanceAtRight (u : NonUniform τ K) (i : Elem τ) : Res K := do
  let j ← Elem.addInt i 1
  let x ← u.coordinate j
  let y ← u.coordinate i
  pure (x - y)

/-- `rmin(d)` (non_uniform_point_sampling.hpp lines 239-244). -/
def rmin (u : NonUniform τ K) (d : Dom τ) : Res K := u.coordinate (Dom.front d)

/-- `rmax(d)` (non_uniform_point_sampling.hpp lines 246-251). -/
def rmax (u : NonUniform τ K) (d : Dom τ) : Res K := do
  let e ← Dom.back d
  u.coordinate e

/-- `rlength(d)` (non_uniform_point_sampling.hpp lines 253-258). -/
def rlength (u : NonUniform τ K) (d : Dom τ) : Res K := do
  let x ← u.rmax d
  let y ← u.rmin d
  pure (x - y)

end NonUniform

/-! ## Periodic sampling -/

/-- `PeriodicSampling::Impl` (periodic_sampling.hpp lines 53-59). -/
structure Periodic (τ K : Type) where
  origin : K
  step : K
  period : U64
  ref : Elem τ
  deriving DecidableEq

namespace Periodic

/-- Constructor (periodic_sampling.hpp lines 97-105). -/
def mk' (t : τ) (origin step : K) (period : U64) : Res (Periodic τ K) := do
  Res.guardAbort (decide (0 < step))
  Res.guardAbort (decide (0 < period))
  pure ⟨origin, step, period, Elem.createReference t⟩

/-- `static_cast<int>(x)` of a `std::size_t`: value modulo `2^32`. -/
def toInt32 (x : U64) : BitVec 32 := x.truncate 32

/-- `x - y` on `int`. -/
def int32Sub (x y : BitVec 32) : Res Int :=
  if -2 ^ 31 ≤ x.toInt - y.toInt ∧ x.toInt - y.toInt < 2 ^ 31 then .ok (x.toInt - y.toInt) else .ub

/-- `x % y` on `std::size_t`. -/
def umod (x y : U64) : Res U64 := if y = 0 then .ub else .ok (x % y)

/-- `coordinate(icoord)` (periodic_sampling.hpp lines 138-146). -/
def coordinate (u : Periodic τ K) (i : Elem τ) : Res K := do
  let v ← Elem.sub i u.ref
  let w ← Vect.addSize v (u.period / 2)
  let x ← Vect.value w
  let r ← umod x u.period
  let k ← int32Sub (toInt32 r) (toInt32 (u.period / 2))
  pure (u.origin + (k : K) * u.step)

/-- `init(a, b, n, n_period)` (periodic_sampling.hpp lines 159-173). -/
def init (t : τ) (a b : K) (n p : Vect τ) : Res (Periodic τ K × Dom τ) := do
  Res.guardAbort (decide (a < b))
  let x ← Vect.value n
  Res.guardAbort (decide (1 < x.toInt))
  let w ← Vect.value p
  Res.guardAbort (decide (1 < w.toInt))
  let m ← Vect.subInt n 1
  let y ← Vect.value m
  let disc ← mk' t a ((b - a) / (y.toInt : K)) w
  let dom ← Dom.ofSize disc.ref n
  pure (disc, dom)

/-- `init_ghosted(a, b, n, n_period, n_ghosts_before, n_ghosts_after)` (periodic_sampling.hpp
lines 187-220): attributes, main domain, ghosted domain, pre-ghost and post-ghost domains. -/
def initGhosted (t : τ) (a b : K) (n p g1 g2 : Vect τ) :
    Res (Periodic τ K × Dom τ × Dom τ × Dom τ × Dom τ) := do
  Res.guardAbort (decide (a < b))
  let x ← Vect.value n
  Res.guardAbort (decide (1 < x.toInt))
  let w ← Vect.value p
  Res.guardAbort (decide (1 < w.toInt))
  let m ← Vect.subInt n 1
  let y ← Vect.value m
  let s := (b - a) / (y.toInt : K)
  let z ← Vect.value g1
  let disc ← mk' t (a - (z.toInt : K) * s) s w
  let n1 ← Vect.add n g1
  let n2 ← Vect.add n1 g2
  let ghosted ← Dom.ofSize disc.ref n2
  let pre ← Dom.takeFirst ghosted g1
  let main ← Dom.remove ghosted g1 g2
  let post ← Dom.takeLast ghosted g2
  pure (disc, main, ghosted, pre, post)

/-- `init_ghosted(a, b, n, n_period, n_ghosts)` (periodic_sampling.hpp lines 233-248). -/
def initGhosted1 (t : τ) (a b : K) (n p g : Vect τ) :
    Res (Periodic τ K × Dom τ × Dom τ × Dom τ × Dom τ) := initGhosted t a b n p g g

/-- `distance_at_left(i)` (periodic_sampling.hpp lines 302-307). -/
def distanceAtLeft (u : Periodic τ K) (_ : Elem τ) : K := u.step

/-- `distance_at_right(i)` (periodic_sampling.hpp lines 309-314). -/
def distanceAtRight (u : Periodic τ K) (_ : Elem τ) : K := u.step

/-- `rmin(d)` (periodic_sampling.hpp lines 316-321). -/
def rmin (u : Periodic τ K) (d : Dom τ) : Res K := u.coordinate (Dom.front d)

/-- `rmax(d)` (periodic_sampling.hpp lines 323-328). -/
def rmax (u : Periodic τ K) (d : Dom τ) : Res K := do
  let e ← Dom.back d
  u.coordinate e

/-- `rlength(d)` (periodic_sampling.hpp lines 330-335). -/
def rlength (u : Periodic τ K) (d : Dom τ) : Res K := do
  let x ← u.rmax d
  let y ← u.rmin d
  pure (x - y)

end Periodic

end Field

/-! ## Several dimensions -/

/-- `coordinate(c)` of an element with several tags (coordinate.hpp lines 31-38): the coordinate of
each projection `DiscreteElement<DDims>(c)`, tagged by the continuous dimension `cd q` of its
discrete dimension; `cs q` is the sampling's `coordinate`. -/
def coordinates {σ : Type} [DecidableEq σ] (cd : τ → σ) (cs : τ → Elem τ → Res K) (c : Elem τ) :
    Res (Tup σ K) := do
  let l ← c.tags.mapM (fun q => do
    let e ← Tup.select [q] c
    let x ← cs q e
    pure [(cd q, x)])
  Tup.ofTuples (c.tags.map cd) l

end DDC
