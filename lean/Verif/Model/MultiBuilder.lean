import Verif.Model.Builder

/-!
# `SplineBuilder2D` and `SplineBuilder3D`

Model of `operator()` of `/repo/src/ddc/kernels/splines/spline_builder_2d.hpp` and
`/repo/src/ddc/kernels/splines/spline_builder_3d.hpp`; the builders in one dimension are those of
`Model/Builder.lean`.

Simplifications common to the file, besides those of `Model/Builder.lean`:
* a chunk is an array with an index for each dimension of interest and a last index for the element of the
  batch domain, in some fixed order: the algorithm does not depend on the order of the dimensions;
* a chunk of derivatives whose batch domain is not the one of the spline is taken to have no column, that is
  reading it is `ub`, even if its domain is larger;
* the first index of an interpolation domain is not compared by the assertions, only its extent is.
-/

namespace DDC

/-- Number of elements of a domain given by the first index and the extent of its dimensions. -/
def vol (l : List (U64 × Nat)) : Nat := (l.map Prod.snd).prod

/-- `operator==` of domains (discrete_domain.hpp lines 124-130). -/
def sameBatch (a b : List (U64 × Nat)) : Bool := decide (vol a = 0 ∧ vol b = 0) || decide (a = b)

/-- A chunk as a builder in one dimension sees it: the first index in its dimension of interest, the values,
and the batch domain. -/
structure Slab (K : Type) where
  first : U64
  mat : Mat K
  batch : List (U64 × Nat)

/-- A chunk on two dimensions of interest and a batch domain. -/
structure Mat2 (K : Type) where
  f1 : U64
  f2 : U64
  n1 : Nat
  n2 : Nat
  batch : List (U64 × Nat)
  val : Nat → Nat → Nat → K

/-- A chunk on three dimensions of interest and a batch domain. -/
structure Mat3 (K : Type) where
  f1 : U64
  f2 : U64
  f3 : U64
  n1 : Nat
  n2 : Nat
  n3 : Nat
  batch : List (U64 × Nat)
  val : Nat → Nat → Nat → Nat → K

/-- The two ends of a dimension. -/
inductive Side
  | lower
  | upper
  deriving DecidableEq

namespace Mat2

variable {K : Type}

/-- The chunk seen along the first dimension. -/
def along1 (a : Mat2 K) : Slab K :=
  ⟨a.f1, ⟨a.n1, vol ((a.f2, a.n2) :: a.batch), fun i c => a.val i (c % a.n2) (c / a.n2)⟩, (a.f2, a.n2) :: a.batch⟩

/-- The chunk seen along the second dimension. -/
def along2 (a : Mat2 K) : Slab K :=
  ⟨a.f2, ⟨a.n2, vol ((a.f1, a.n1) :: a.batch), fun i c => a.val (c % a.n1) i (c / a.n1)⟩, (a.f1, a.n1) :: a.batch⟩

/-- The chunk once the values of `along1` have become `m`. -/
def put1 (a : Mat2 K) (m : Mat K) : Mat2 K := { a with val := fun i j b => m.val i (j + a.n2 * b) }

/-- The chunk once the values of `along2` have become `m`. -/
def put2 (a : Mat2 K) (m : Mat K) : Mat2 K := { a with val := fun i j b => m.val j (i + a.n1 * b) }

end Mat2

namespace Mat3

variable {K : Type}

/-- The chunk seen along the first dimension. -/
def along1 (a : Mat3 K) : Slab K :=
  ⟨a.f1, ⟨a.n1, vol ((a.f2, a.n2) :: (a.f3, a.n3) :: a.batch),
    fun i c => a.val i (c % a.n2) (c / a.n2 % a.n3) (c / a.n2 / a.n3)⟩, (a.f2, a.n2) :: (a.f3, a.n3) :: a.batch⟩

/-- The chunk seen along the second and third dimensions. -/
def along23 (a : Mat3 K) : Mat2 K :=
  ⟨a.f2, a.f3, a.n2, a.n3, (a.f1, a.n1) :: a.batch, fun i j c => a.val (c % a.n1) i j (c / a.n1)⟩

/-- The chunk once the values of `along1` have become `m`. -/
def put1 (a : Mat3 K) (m : Mat K) : Mat3 K :=
  { a with val := fun i j k b => m.val i (j + a.n2 * (k + a.n3 * b)) }

/-- The chunk once the values of `along23` have become `m`. -/
def put23 (a : Mat3 K) (m : Mat2 K) : Mat3 K := { a with val := fun i j k b => m.val j k (i + a.n1 * b) }

end Mat3

/-- The boundary data of `SplineBuilder2D::operator()` (spline_builder_2d.hpp lines 546-585): the derivatives along
a dimension at each of its ends, and the mixed derivatives at each pair of ends. -/
structure Derivs2 (K : Type) where
  d1 : Side → Option (Mat2 K)
  d2 : Side → Option (Mat2 K)
  d12 : Side → Side → Option (Mat2 K)

/-- The boundary data of `SplineBuilder3D::operator()` (spline_builder_3d.hpp lines 803-932). -/
structure Derivs3 (K : Type) where
  d1 : Side → Option (Mat3 K)
  d2 : Side → Option (Mat3 K)
  d3 : Side → Option (Mat3 K)
  d12 : Side → Side → Option (Mat3 K)
  d13 : Side → Side → Option (Mat3 K)
  d23 : Side → Side → Option (Mat3 K)
  d123 : Side → Side → Side → Option (Mat3 K)

namespace Builder

variable {K : Type} [Field K] [LinearOrder K]

/-- The closure of the builder at an end. -/
def closure (B : Builder K) : Side → Closure
  | .lower => B.lower
  | .upper => B.upper

/-- A chunk of derivatives for a spline with the given batch domain. -/
def seen (batch : List (U64 × Nat)) (d : Slab K) : U64 × Mat K :=
  (d.first, if d.batch = batch then d.mat else ⟨d.mat.rows, 0, d.mat.val⟩)

/-- `SplineBuilder::operator()` (spline_builder.hpp lines 905-1101) on chunks with a batch domain. -/
def applySlab (L : Lapack K) (σ : Sched) (B : Builder K) (junk : Nat → Nat → K) (spline vals : Slab K)
    (dmin dmax : Option (Slab K)) : Res (Mat K) := do
  Res.guardAbort (sameBatch vals.batch spline.batch)
  B.apply L σ junk spline.mat vals.mat (dmin.map (seen spline.batch)) (dmax.map (seen spline.batch))

/-- The builder along the first dimension of two. -/
def apply1 (L : Lapack K) (σ : Sched) (B : Builder K) (junk : Nat → Nat → K) (spline vals : Mat2 K)
    (dmin dmax : Option (Mat2 K)) : Res (Mat2 K) := do
  let m ← B.applySlab L σ junk spline.along1 vals.along1 (dmin.map Mat2.along1) (dmax.map Mat2.along1)
  .ok (spline.put1 m)

/-- The builder along the second dimension of two. -/
def apply2 (L : Lapack K) (σ : Sched) (B : Builder K) (junk : Nat → Nat → K) (spline vals : Mat2 K)
    (dmin dmax : Option (Mat2 K)) : Res (Mat2 K) := do
  let m ← B.applySlab L σ junk spline.along2 vals.along2 (dmin.map Mat2.along2) (dmax.map Mat2.along2)
  .ok (spline.put2 m)

/-- The builder along the first dimension of three. -/
def apply1of3 (L : Lapack K) (σ : Sched) (B : Builder K) (junk : Nat → Nat → K) (spline vals : Mat3 K)
    (dmin dmax : Option (Mat3 K)) : Res (Mat3 K) := do
  let m ← B.applySlab L σ junk spline.along1 vals.along1 (dmin.map Mat3.along1) (dmax.map Mat3.along1)
  .ok (spline.put1 m)

/-- The approximation along the first dimension of the derivatives along the second one at the end `s`
(spline_builder_2d.hpp lines 600-622, 633-647); `mem` is the content of the memory of the chunk that is allocated
for it. -/
def derivs2 (L : Lapack K) (σ : Sched) (B1 B2 : Builder K) (junk : Nat → Nat → K) (mem : Nat → Nat → Nat → K)
    (size1 : Nat) (vals : Mat2 K) (d : Derivs2 K) (s : Side) : Res (Option (Mat2 K)) :=
  let p2 := B2.bs.degree
  if B2.closure s = .hermite then
    match d.d2 s with
    | none => .ub
    | some v => do
      let r ← B1.apply1 L σ junk ⟨0, BitVec.ofNat 64 (p2 % 2), size1, p2 / 2, vals.batch, mem⟩ v (d.d12 .lower s)
        (d.d12 .upper s)
      .ok (some r)
  else .ok none

/-- The content of the memory that `SplineBuilder2D::operator()` allocates: `spline1_deriv_min`, `spline1`,
`spline1_deriv_max`, and the temporary chunks of the four calls of the builders in one dimension. -/
structure Memory2 (K : Type) where
  deriv : Side → Nat → Nat → Nat → K
  spline1 : Nat → Nat → Nat → K
  tmp : Nat → Nat → Nat → K

/-- `SplineBuilder2D::operator()` (spline_builder_2d.hpp lines 586-651). -/
def build2 (L : Lapack K) (σ : Sched) (B1 B2 : Builder K) (μ : Memory2 K) (spline vals : Mat2 K) (d : Derivs2 K) :
    Res (Mat2 K) := do
  let N1 ← Dom.size B1.dom
  let N2 ← Dom.size B2.dom
  Res.guardAbort (decide (vals.n1 = N1.toNat ∧ vals.n2 = N2.toNat))
  Res.guardAbort (sameBatch vals.batch spline.batch)
  if vol vals.batch = 0 then .ok spline
  else do
    let full ← B1.bs.fullDomain
    let size1 ← Dom.size full
    let dmin ← derivs2 L σ B1 B2 (μ.tmp 0) (μ.deriv .lower) size1.toNat vals d .lower
    let s1 ← B1.apply1 L σ (μ.tmp 1) ⟨0, vals.f2, size1.toNat, vals.n2, vals.batch, μ.spline1⟩ vals (d.d1 .lower)
      (d.d1 .upper)
    let dmax ← derivs2 L σ B1 B2 (μ.tmp 2) (μ.deriv .upper) size1.toNat vals d .upper
    B2.apply2 L σ (μ.tmp 3) spline s1 dmin dmax

/-- The content of the memory that `SplineBuilder3D::operator()` allocates: the chunks of derivatives along the
second and the third dimension and of mixed derivatives, `spline1`, the temporary chunks of the nine calls of the
builder in one dimension, and what the builder in two dimensions allocates. -/
structure Memory3 (K : Type) where
  deriv2 : Side → Nat → Nat → Nat → Nat → K
  deriv3 : Side → Nat → Nat → Nat → Nat → K
  deriv23 : Side → Side → Nat → Nat → Nat → Nat → K
  spline1 : Nat → Nat → Nat → Nat → K
  tmp : Nat → Nat → Nat → K
  inner : Memory2 K

/-- The approximation along the first dimension of the derivatives along the second one at the end `s`
(spline_builder_3d.hpp lines 951-986). -/
def derivs2of3 (L : Lapack K) (σ : Sched) (B1 B2 : Builder K) (junk : Nat → Nat → K)
    (mem : Nat → Nat → Nat → Nat → K) (size1 : Nat) (vals : Mat3 K) (d : Derivs3 K) (s : Side) :
    Res (Option (Mat3 K)) :=
  let p2 := B2.bs.degree
  if B2.closure s = .hermite then
    match d.d2 s with
    | none => .ub
    | some v => do
      let r ← B1.apply1of3 L σ junk
        ⟨0, BitVec.ofNat 64 (p2 % 2), vals.f3, size1, p2 / 2, vals.n3, vals.batch, mem⟩ v (d.d12 .lower s)
        (d.d12 .upper s)
      .ok (some r)
  else .ok none

/-- The approximation along the first dimension of the derivatives along the third one at the end `s`
(spline_builder_3d.hpp lines 988-1026). -/
def derivs3of3 (L : Lapack K) (σ : Sched) (B1 B3 : Builder K) (junk : Nat → Nat → K)
    (mem : Nat → Nat → Nat → Nat → K) (size1 : Nat) (vals : Mat3 K) (d : Derivs3 K) (s : Side) :
    Res (Option (Mat3 K)) :=
  let p3 := B3.bs.degree
  if B3.closure s = .hermite then
    match d.d3 s with
    | none => .ub
    | some v => do
      let r ← B1.apply1of3 L σ junk
        ⟨0, vals.f2, BitVec.ofNat 64 (p3 % 2), size1, vals.n2, p3 / 2, vals.batch, mem⟩ v (d.d13 .lower s)
        (d.d13 .upper s)
      .ok (some r)
  else .ok none

/-- The approximation along the first dimension of the mixed derivatives along the second and the third one at the
ends `s2`, `s3` (spline_builder_3d.hpp lines 1028-1103). -/
def derivs23of3 (L : Lapack K) (σ : Sched) (B1 B2 B3 : Builder K) (junk : Nat → Nat → K)
    (mem : Nat → Nat → Nat → Nat → K) (size1 : Nat) (vals : Mat3 K) (d : Derivs3 K) (s2 s3 : Side) :
    Res (Option (Mat3 K)) :=
  let p2 := B2.bs.degree
  let p3 := B3.bs.degree
  if B2.closure s2 = .hermite ∨ B3.closure s3 = .hermite then
    match d.d23 s2 s3 with
    | none => .ub
    | some v => do
      let r ← B1.apply1of3 L σ junk
        ⟨0, BitVec.ofNat 64 (p2 % 2), BitVec.ofNat 64 (p3 % 2), size1, p2 / 2, p3 / 2, vals.batch, mem⟩ v
        (d.d123 .lower s2 s3) (d.d123 .upper s2 s3)
      .ok (some r)
  else .ok none

/-- The arguments that `SplineBuilder3D::operator()` gives to the builder along the second and the third dimension
(spline_builder_3d.hpp lines 1116-1123): `lo`, `hi` are those at the lower and upper end. -/
def sides {α : Type} (lo hi : α) : Side → α
  | .lower => lo
  | .upper => hi

/-- `SplineBuilder3D::operator()` (spline_builder_3d.hpp lines 933-1124). -/
def build3 (L : Lapack K) (σ : Sched) (B1 B2 B3 : Builder K) (μ : Memory3 K) (spline vals : Mat3 K)
    (d : Derivs3 K) : Res (Mat3 K) := do
  let N1 ← Dom.size B1.dom
  let N2 ← Dom.size B2.dom
  let N3 ← Dom.size B3.dom
  Res.guardAbort (decide (vals.n1 = N1.toNat ∧ vals.n2 = N2.toNat ∧ vals.n3 = N3.toNat))
  Res.guardAbort (sameBatch vals.batch spline.batch)
  if vol vals.batch = 0 then .ok spline
  else do
    let full ← B1.bs.fullDomain
    let size1 ← Dom.size full
    let min2 ← derivs2of3 L σ B1 B2 (μ.tmp 0) (μ.deriv2 .lower) size1.toNat vals d .lower
    let max2 ← derivs2of3 L σ B1 B2 (μ.tmp 1) (μ.deriv2 .upper) size1.toNat vals d .upper
    let min3 ← derivs3of3 L σ B1 B3 (μ.tmp 2) (μ.deriv3 .lower) size1.toNat vals d .lower
    let max3 ← derivs3of3 L σ B1 B3 (μ.tmp 3) (μ.deriv3 .upper) size1.toNat vals d .upper
    let minmin ← derivs23of3 L σ B1 B2 B3 (μ.tmp 4) (μ.deriv23 .lower .lower) size1.toNat vals d .lower .lower
    let minmax ← derivs23of3 L σ B1 B2 B3 (μ.tmp 5) (μ.deriv23 .lower .upper) size1.toNat vals d .lower .upper
    let maxmin ← derivs23of3 L σ B1 B2 B3 (μ.tmp 6) (μ.deriv23 .upper .lower) size1.toNat vals d .upper .lower
    let maxmax ← derivs23of3 L σ B1 B2 B3 (μ.tmp 7) (μ.deriv23 .upper .upper) size1.toNat vals d .upper .upper
    let s1 ← B1.apply1of3 L σ (μ.tmp 8)
      ⟨0, vals.f2, vals.f3, size1.toNat, vals.n2, vals.n3, vals.batch, μ.spline1⟩ vals (d.d1 .lower) (d.d1 .upper)
    let r ← build2 L σ B2 B3 μ.inner spline.along23 s1.along23
      ⟨fun s => (sides min2 max2 s).map Mat3.along23, fun s => (sides min3 max3 s).map Mat3.along23,
        fun s t => (sides (sides minmin minmax) (sides maxmin maxmax) s t).map Mat3.along23⟩
    .ok (spline.put23 r)

end Builder

end DDC
