import Verif.Model.View
import Verif.Model.Sampling
import Mathlib.Algebra.Order.Floor.Defs

/-!
# The heat equation of the examples

`main` of `/repo/examples/uniform_heat_equation.cpp`: the domains with a ghost point on each side, the time step, the
allocation and initialisation of the two chunks, and the time loop.  The parameters of lines 79-92 are arguments.

Simplifications: numbers are those of a field `K`; the display and the copies to the host that only serve it
(lines 180-188, 251-256, 265-269) are left out, they do not write the two chunks; a kernel is complete when the function
that launches it returns (C66); `ddc::init_discrete_space` hands the attributes over unchanged (C25, C68).
-/

namespace DDC.Heat

/-- `DDimX`, `DDimY`, `DDimT` (lines 25-46). -/
inductive Dim
  | x
  | y
  | t
  deriving DecidableEq, Repr

variable {α : Type}

/-- The domains of a dimension: `x_domain`, `ghosted_x_domain`, `x_pre_ghost`, `x_post_ghost`, `x_pre_mirror`,
`x_post_mirror`. -/
structure Axis where
  main : Dom Dim
  ghosted : Dom Dim
  pre : Dom Dim
  post : Dom Dim
  preMirror : Dom Dim
  postMirror : Dom Dim

/-- The zones that are copied to the ghosts (uniform_heat_equation.cpp lines 111-114, 127-131; the same in
heat_equation.cpp and non_uniform_heat_equation.cpp). -/
def Axis.ofGhosted (main ghosted pre post : Dom Dim) : Res Axis := do
  let n ← Dom.extents main
  let f ← Elem.subVec (Dom.front post) n
  let k ← Dom.extents post
  let postMirror ← Dom.ofSize f k
  let f ← Elem.addVec (Dom.front pre) n
  let k ← Dom.extents pre
  let preMirror ← Dom.ofSize f k
  .ok ⟨main, ghosted, pre, post, preMirror, postMirror⟩

/-- The orders in which the assignments of the copies and the iterations of the kernel are carried out in a time step:
a copy has an order for every iteration of the loop around it. -/
structure Orders where
  xPre : Int → List (List U64)
  xPost : Int → List (List U64)
  yPre : Int → List (List U64)
  yPost : Int → List (List U64)
  kernel : List (List I64)

/-- The loops that fill the ghosts in `x` (uniform_heat_equation.cpp lines 201-210). -/
def fillX (order : Int → List (List U64)) (ghost mirror y : Dom Dim) (last : View (Dom Dim)) (mem : Mem α) :
    Res (Mem α) := do
  let n ← Dom.extents ghost
  let n ← Vect.value n
  Support.loop n.toInt (fun ii mem => do
    let g ← Dom.index ghost (BitVec.ofInt 64 ii)
    let m ← Dom.index mirror (BitVec.ofInt 64 ii)
    let dst ← View.sliceAt last [(.x, g)]
    let dst ← View.restrictTo dst y
    let src ← View.sliceAt last [(.x, m)]
    let src ← View.restrictTo src y
    let (mem, _) ← parallelDeepcopy Dom.spanOps Dom.eq (order ii) mem dst src
    .ok mem) 0 mem

/-- The loops that fill the ghosts in `y` (uniform_heat_equation.cpp lines 211-220). -/
def fillY (order : Int → List (List U64)) (ghost mirror x : Dom Dim) (last : View (Dom Dim)) (mem : Mem α) :
    Res (Mem α) := do
  let n ← Dom.extents ghost
  let n ← Vect.value n
  Support.loop n.toInt (fun ii mem => do
    let g ← Dom.index ghost (BitVec.ofInt 64 ii)
    let m ← Dom.index mirror (BitVec.ofInt 64 ii)
    let dst ← View.restrictTo last x
    let dst ← View.sliceAt dst [(.y, g)]
    let src ← View.restrictTo last x
    let src ← View.sliceAt src [(.y, m)]
    let (mem, _) ← parallelDeepcopy Dom.spanOps Dom.eq (order ii) mem dst src
    .ok mem) 0 mem

section scheme

variable {K : Type} [Field K] [LinearOrder K]

/-- The kernel (uniform_heat_equation.cpp lines 232-247): `incX right centre left` and `incY up centre down` are what is
added, `add` is the addition of `+=`. -/
def kernel (add : K → K → K) (incX incY : Elem Dim → K → K → K → Res K) (last next : View (Dom Dim)) (ixy : Elem Dim) (mem : Mem K) :
    Res (Mem K) := do
  let ix ← Tup.select [.x] ixy
  let iy ← Tup.select [.y] ixy
  let c ← View.get mem last [ix, iy]
  let mem ← View.put mem next [ix, iy] c
  let right ← Elem.addInt ix 1
  let r ← View.get mem last [right, iy]
  let c ← View.get mem last [ix, iy]
  let left ← Elem.subInt ix 1
  let l ← View.get mem last [left, iy]
  let d ← incX ix r c l
  let o ← View.get mem next [ix, iy]
  let mem ← View.put mem next [ix, iy] (add o d)
  let up ← Elem.addInt iy 1
  let u ← View.get mem last [ix, up]
  let c ← View.get mem last [ix, iy]
  let down ← Elem.subInt iy 1
  let w ← View.get mem last [ix, down]
  let d ← incY iy u c w
  let o ← View.get mem next [ix, iy]
  View.put mem next [ix, iy] (add o d)

/-- The body of the time loop before the swap (uniform_heat_equation.cpp lines 201-247). -/
def timeStep (add : K → K → K) (incX incY : Elem Dim → K → K → K → Res K) (A B : Axis) (o : Orders)
    (last next : View (Dom Dim)) (mem : Mem K) : Res (Mem K) := do
  let mem ← fillX o.xPre A.pre A.preMirror B.main last mem
  let mem ← fillX o.xPost A.post A.postMirror B.main last mem
  let mem ← fillY o.yPre B.pre B.preMirror A.main last mem
  let mem ← fillY o.yPost B.post B.postMirror A.main last mem
  let d ← Dom.ofDomains [.x, .y] [A.main, B.main]
  let next ← View.restrictTo next d
  Support.runSchedule (Dom.support next.span.dom) (kernel add incX incY last next) o.kernel mem

/-- `n` rounds of the time loop, from round `i` on, with `std::swap` of the two chunks
(uniform_heat_equation.cpp lines 196-262); returns the memory and `ghosted_last_temp`. -/
def timeLoop (add : K → K → K) (incX incY : Elem Dim → K → K → K → Res K) (A B : Axis) (orders : Nat → Orders) :
    Nat → Nat → View (Dom Dim) → View (Dom Dim) → Mem K → Res (Mem K × View (Dom Dim))
  | 0, _, last, _, mem => .ok (mem, last)
  | n + 1, i, last, next, mem => do
    let mem ← timeStep add incX incY A B (orders i) last next mem
    timeLoop add incX incY A B orders n (i + 1) next last mem

/-- What is added in a dimension of step `1 / √inv` (uniform_heat_equation.cpp lines 238-241, 243-246). -/
def uniformInc (k dt inv : K) (_ : Elem Dim) (r c l : K) : Res K := .ok (k * dt * (r - 2 * c + l) * inv)

/-- The parameters (uniform_heat_equation.cpp lines 79-92). -/
structure Params (K : Type) where
  xStart : K
  xEnd : K
  nx : U64
  kx : K
  yStart : K
  yEnd : K
  ny : U64
  ky : K
  startTime : K
  endTime : K

/-- The chunks and their initialisation (uniform_heat_equation.cpp lines 154-176): the memory, `ghosted_last_temp` and
`ghosted_next_temp`; `temp` is the initial temperature as a function of the coordinates of the point, `order` the order of
the iterations. -/
def allocate (A B : Axis) (xOf yOf : Elem Dim → Res K) (temp : K → K → K) (junk : Nat → K) (order : List (List I64)) :
    Res (Mem K × View (Dom Dim) × View (Dom Dim)) := do
  let d ← Dom.ofDomains [.x, .y] [A.ghosted, B.ghosted]
  let (mem, last) ← newChunk Dom.spanOps junk 0 [] d
  let (mem, next) ← newChunk Dom.spanOps junk 0 mem d
  let d ← Dom.ofDomains [.x, .y] [A.main, B.main]
  let mem ← Support.runSchedule (Dom.support d) (fun ixy mem => do
    let ix ← Tup.select [.x] ixy
    let x ← xOf ix
    let iy ← Tup.select [.y] ixy
    let y ← yOf iy
    View.put mem last [ixy] (temp x y)) order mem
  .ok (mem, last, next)

/-- `static_cast<std::ptrdiff_t>(std::ceil(x) + .2)` (uniform_heat_equation.cpp line 144): truncation, undefined if the
result cannot be represented. -/
def ceilCast [FloorRing K] (x : K) : Res I64 :=
  let y : K := (⌈x⌉ : K) + 1 / 5
  let z := if 0 ≤ y then ⌊y⌋ else ⌈y⌉
  if -2 ^ 63 ≤ z ∧ z < 2 ^ 63 then .ok (BitVec.ofInt 64 z) else .ub

/-- `main` (uniform_heat_equation.cpp lines 72-271): the memory at the end and `ghosted_last_temp`. -/
def main [FloorRing K] (p : Params K) (temp : K → K → K) (junk : Nat → K) (order : List (List I64)) (orders : Nat → Orders) :
    Res (Mem K × View (Dom Dim)) := do
  let (ux, xMain, xGhosted, xPre, xPost) ← Uniform.initGhosted1 .x p.xStart p.xEnd [(.x, p.nx)] [(.x, 1)]
  let A ← Axis.ofGhosted xMain xGhosted xPre xPost
  let (uy, yMain, yGhosted, yPre, yPost) ← Uniform.initGhosted1 .y p.yStart p.yEnd [(.y, p.ny)] [(.y, 1)]
  let B ← Axis.ofGhosted yMain yGhosted yPre yPost
  let invdx2 := 1 / (ux.step * ux.step)
  let invdy2 := 1 / (uy.step * uy.step)
  let dt := 1 / 2 / (p.kx * invdx2 + p.ky * invdy2)
  let n ← ceilCast ((p.endTime - p.startTime) / dt)
  let n ← Vect.addInt [(Dim.t, n)] 1
  let (ut, time) ← Uniform.init Dim.t p.startTime p.endTime n
  let (mem, last, next) ← allocate A B ux.coordinate uy.coordinate temp junk order
  let time ← Dom.removeFirst time [(Dim.t, 1)]
  let n ← Dom.size time
  timeLoop (· + ·) (uniformInc p.kx ut.step invdx2) (uniformInc p.ky ut.step invdy2) A B orders n.toNat 0 last next mem

end scheme

end DDC.Heat
