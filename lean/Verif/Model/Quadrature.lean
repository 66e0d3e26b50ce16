import Verif.Model.Builder
import Verif.Model.Evaluator
import Verif.Model.Integrals

/-!
# Quadrature

Model of `SplineBuilder::quadrature_coefficients` (`/repo/src/ddc/kernels/splines/spline_builder.hpp`) and of
`SplineEvaluator::integrate` (`/repo/src/ddc/kernels/splines/spline_evaluator.hpp`).
-/

namespace DDC

section

variable {K : Type} [Field K] [LinearOrder K]

/-- `ddc::integrals` (integrals.hpp lines 166-178).  `sched` is the order of the iterations of the parallel loop. -/
def BSpl.integrals [FloorRing K] (bs : BSpl K) (sched : List Nat) (vals : Chunk1 K) : Res (Chunk1 K) :=
  match bs with
  | .uniform u => u.integrals sched vals
  | .nonUniform u => u.integrals (sched.map (BitVec.ofNat 64)) vals

/-- `chunk[odomain]` (chunk_span.hpp lines 320-352).  The result is a copy of the values, not a view; see `fillSub` for
the conditions. -/
def Chunk1.restrict (c : Chunk1 K) (o : Dom Unit) : Res (Chunk1 K) := do
  let e ← Dom.empty o
  let c1 ← Dom.contains c.dom [Dom.front o]
  let bk ← Dom.back o
  let c2 ← Dom.contains c.dom [bk]
  Res.guardAbort (e || (c1 && c2))
  let a ← Elem.sub (Dom.front o) (Dom.front c.dom)
  let f ← Vect.value a
  let bk' ← Elem.addInt bk 1
  let b ← Elem.sub bk' (Dom.front c.dom)
  let l ← Vect.value b
  if f.toNat ≤ l.toNat ∧ l.toNat ≤ c.data.size then
    .ok ⟨o, ⟨l.toNat - f.toNat, fun i => c.data.val (f.toNat + i)⟩⟩
  else .ub

/-- `s_nbv_xmin`, `s_nbv_xmax` (spline_builder.hpp lines 175-183). -/
def Closure.values (c : Closure) (degree : Nat) : Nat := if c = .homogeneousHermite then 0 else c.equations degree

namespace Builder

/-- The multiplication of the coefficients of the derivatives by `dx^n` (spline_builder.hpp lines 1187-1205).  Each
iteration of the parallel loop changes its own element. -/
def scaleBy (dx : K) (odd : Nat) (c : Chunk1 K) : Chunk1 K :=
  ⟨c.dom, ⟨c.data.size, fun i => (c.data.val i).map (· * ipow dx (i + odd))⟩⟩

/-- `quadrature_coefficients` (spline_builder.hpp lines 1112-1234).  The slices of `integral_bsplines` are views in the
code; they are disjoint and the model copies them.  The views that Kokkos allocates with a label are filled with zero. -/
def quadrature [FloorRing K] (L : Lapack K) (σ : Sched) (sched : List Nat) (B : Builder K) :
    Res (Chunk1 K × Chunk1 K × Chunk1 K) := do
  let p := B.bs.degree
  let full ← B.bs.fullDomain
  let size ← Dom.size full
  let I ← B.bs.integrals sched ⟨full, Arr.uninit size.toNat⟩
  let d ← Dom.takeFirst full (ve1 B.matrix.size)
  let I ← I.restrict d
  let n ← Dom.size I.dom
  let rows ← B.matrix.requiredRows
  let mirror ← forLoop (fun i m => do
    let v ← I.data.rd i
    m.wr i 0 v) 0 n.toNat (Mat.zero rows 1)
  let mirror ← B.solver.solve L σ true rows.toNat 0 mirror
  let data ← forLoop (fun i a => do
    let v ← mirror.rd i 0
    a.wr i v) 0 n.toNat I.data
  let I : Chunk1 K := ⟨I.dom, data⟩
  let nbvMin := BitVec.ofNat 64 (B.lower.values p)
  let nbvMax := BitVec.ofNat 64 (B.upper.values p)
  let d1 ← Dom.takeFirst full (ve1 nbvMin)
  let c1 ← I.restrict d1
  let r ← Dom.removeFirst full (ve1 nbvMin)
  let nb ← B.bs.nbasis
  let d2 ← Dom.takeFirst r (ve1 (nb - nbvMin - nbvMax))
  let c2 ← I.restrict d2
  let k ← Dom.size c2.dom
  let r ← Dom.removeFirst full (ve1 (nbvMin + k))
  let d3 ← Dom.takeFirst r (ve1 nbvMax)
  let c3 ← I.restrict d3
  let c1 := scaleBy B.dx (p % 2) c1
  let c3 := scaleBy B.dx (p % 2) c3
  let o1 ← Dom.ofSize (el1 (BitVec.ofNat 64 (p % 2))) (ve1 nbvMin)
  let o2 ← Dom.takeFirst B.dom (ve1 k)
  let o3 ← Dom.ofSize (el1 (BitVec.ofNat 64 (p % 2))) (ve1 nbvMax)
  .ok (⟨o1, c1.data⟩, ⟨o2, c2.data⟩, ⟨o3, c3.data⟩)

end Builder

namespace Eval

/-- The loops of `integrate` on the B-splines (spline_evaluator.hpp lines 520-524, spline_evaluator_2d.hpp lines
651-658, spline_evaluator_3d.hpp lines 783-794, spline_evaluator_nd.hpp lines 625-633): `is` are the arrays of values
and the elements already chosen, `y` is `integrals(j)`.  The last of these four files multiplies the values before the
coefficient; the order of the factors has no importance for the idealised numbers. -/
def intLoop (coef : Coefs K) : List (Chunk1 K) → List (Chunk1 K × Elem Unit) → K → Res K
  | [], is, y => do
    let idx ← is.mapM fun a => uid1 a.2
    let c ← coef idx
    let z ← is.foldlM (fun z a => do
      let w ← a.1.get a.2
      .ok (z * w)) c
    .ok (y + z)
  | v :: vs, is, y => hostForEach1 v.dom (fun i y => intLoop coef vs (is ++ [(v, i)]) y) y

/-- One dimension of `integrate`: the B-splines, the order of the iterations in `ddc::integrals` and the domain of the
coefficients. -/
structure IntDim (K : Type) where
  bs : BSpl K
  sched : List Nat
  dom : Dom Unit

/-- `integrate` (spline_evaluator.hpp lines 494-526, spline_evaluator_2d.hpp lines 616-660, spline_evaluator_3d.hpp
lines 742-797, spline_evaluator_nd.hpp lines 597-635), in the number of dimensions of the list.  The columns of `out`
are the batch domain, `σ` is the order in which they are treated, `coef j` are the coefficients of the column `j`.  The
result has one row. -/
def integrate [FloorRing K] (σ : Sched) (dims : List (IntDim K)) (coef : Nat → Coefs K) (out : Mat K) :
    Res (Mat K) := do
  let vals ← dims.mapM fun d => do
    let size ← Dom.size d.dom
    d.bs.integrals d.sched ⟨d.dom, Arr.uninit size.toNat⟩
  Builder.colLoop σ (fun j out => do
    let out ← out.wr 0 j 0
    let y ← out.rd 0 j
    let y ← intLoop (coef j) vals [] y
    out.wr 0 j y) out

end Eval

end

end DDC
