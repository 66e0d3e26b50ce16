import Verif.Model.BSplines

/-!
# Integrals of the B-splines

Model of `/repo/src/ddc/kernels/splines/integrals.hpp`.
-/

namespace DDC

/-- A `ChunkSpan` with one dimension: its domain and the values, indexed by the distance from the front.
Layouts and pointers are left out; they are the subject of `Model/Chunk.lean`. -/
structure Chunk1 (K : Type) where
  dom : Dom Unit
  data : Arr K

namespace Chunk1

variable {K : Type}

/-- Index accessed by `operator()(elem)` (chunk_span.hpp lines 354-369). -/
def pos (c : Chunk1 K) (e : Elem Unit) : Res Nat := do
  let b ← Dom.contains c.dom [e]
  Res.guardAbort b
  let v ← Dom.distanceFromFront c.dom [e]
  let x ← Vect.value v
  pure x.toNat

/-- Reading `chunk(elem)`. -/
def get (c : Chunk1 K) (e : Elem Unit) : Res K := do
  let i ← c.pos e
  c.data.rd i

/-- `chunk(elem) = v`. -/
def put (c : Chunk1 K) (e : Elem Unit) (v : K) : Res (Chunk1 K) := do
  let i ← c.pos e
  let a ← c.data.wr i v
  pure ⟨c.dom, a⟩

/-- `parallel_fill(exec, chunk[odomain], v)` (chunk_span.hpp lines 320-352, parallel_fill.hpp).  The slice
is given by the distances of the two ends of `odomain` from the front of the domain of the chunk; like
`submdspan` it requires `first <= last <= extent`.  The order of the writes does not matter as they all
write the same value to different places. -/
def fillSub (c : Chunk1 K) (o : Dom Unit) (v : K) : Res (Chunk1 K) := do
  let e ← Dom.empty o
  let c1 ← Dom.contains c.dom [Dom.front o]
  let bk ← Dom.back o
  let c2 ← Dom.contains c.dom [bk]
  Res.guardAbort (e || (c1 && c2))
  let a ← Elem.sub (Dom.front o) (Dom.front c.dom)
  let f ← Vect.value a
  let bk' ← Elem.addInt bk 1
  let b ← Elem.sub bk' (Dom.front c.dom)
  let l ← Vect.value b
  if f.toNat ≤ l.toNat ∧ l.toNat ≤ c.data.size then do
    let d ← forLoop (fun i d => Arr.wr d i v) f.toNat (l.toNat - f.toNat) c.data
    pure ⟨c.dom, d⟩
  else .ub

end Chunk1

section

variable {K : Type} [Field K] [LinearOrder K]

/-- `sum(array, start, end)` (math_tools.hpp lines 39-54); `sum(array)` (lines 24-37) is the case
`start = 0`, `end = array.extent(0)`. -/
def sumArr (a : Arr K) (start stop : Nat) : Res K :=
  forLoop (fun i acc => do let v ← a.rd i; pure (acc + v)) start (stop - start) 0

/-- The assertion on the size of `int_vals` (integrals.hpp lines 40-47 and 120-127). -/
def integralsSize (per : Bool) (size nbasis full : U64) : Bool :=
  if per then decide (size = nbasis) || decide (size = full) else decide (size = nbasis)

/-- Body of the `parallel_for` (integrals.hpp lines 79-99). -/
def UBS.edgeIntegral [FloorRing K] (u : UBS K) (first last : Elem Unit) (vals : Chunk1 K) (i : Nat) :
    Res (Chunk1 K) := do
  let a ← u.rmin
  let e ← u.evalBasisDeg (Arr.uninit (u.degree + 2)) a (u.degree + 1)
  let dEval ← sumArr e.1 0 e.1.size
  let cEval ← sumArr e.1 0 (u.degree - i)
  let edge := u.knots.step * (dEval - cEval)
  let x ← Elem.addInt first (BitVec.ofNat 64 i)
  let vals ← vals.put x edge
  let y ← Elem.subInt last (BitVec.ofNat 64 i)
  vals.put y edge

/-- `uniform_bsplines_integrals` (integrals.hpp lines 30-102).  `sched` is the order in which the
iterations of the `parallel_for` are executed. -/
def UBS.integrals [FloorRing K] (u : UBS K) (sched : List Nat) (vals : Chunk1 K) : Res (Chunk1 K) := do
  let n ← Dom.size vals.dom
  let nb ← u.nbasis
  let sz ← u.size
  Res.guardAbort (integralsSize u.periodic n nb sz)
  let full ← u.fullDomain
  if u.periodic then do
    let d ← Dom.takeFirst full (ve1 nb)
    let vals ← vals.fillSub d u.knots.step
    if n = sz then do
      let r ← Dom.takeLast full (ve1 (BitVec.ofNat 64 u.degree))
      vals.fillSub r 0
    else pure vals
  else do
    let p := ve1 (BitVec.ofNat 64 u.degree)
    let d ← Dom.remove full p p
    let vals ← vals.fillSub d u.knots.step
    let last ← Dom.back full
    sched.foldlM (u.edgeIntegral (Dom.front full) last) vals

/-- Body of the `parallel_for_each` (integrals.hpp lines 136-142). -/
def NUBS.integralOne (u : NUBS K) (vals : Chunk1 K) (ix : Elem Unit) : Res (Chunk1 K) := do
  let l ← u.lastSupportKnot ix
  let x ← u.knots.coordinate l
  let f ← u.firstSupportKnot ix
  let y ← u.knots.coordinate f
  vals.put ix ((x - y) * (1 / ((u.degree : K) + 1)))

/-- `non_uniform_bsplines_integrals` (integrals.hpp lines 110-154).  `sched` is the order in which the
elements of the domain are treated. -/
def NUBS.integrals (u : NUBS K) (sched : List U64) (vals : Chunk1 K) : Res (Chunk1 K) := do
  let n ← Dom.size vals.dom
  let nb ← u.nbasis
  let sz ← u.size
  Res.guardAbort (integralsSize u.periodic n nb sz)
  let full ← u.fullDomain
  let d ← Dom.takeFirst full (ve1 nb)
  let vals ← sched.foldlM (fun vals k => do
    let ix ← Elem.addInt (Dom.front d) k
    u.integralOne vals ix) vals
  if u.periodic && decide (n = sz) then do
    let r ← Dom.takeLast full (ve1 (BitVec.ofNat 64 u.degree))
    vals.fillSub r 0
  else pure vals

end

end DDC
