import Verif.Model.HeatSampling
import Verif.Model.Reducer

/-!
# The output of the example programs

The five programs of `/repo/examples` that advance a solution in time share the same output: the initial state, every
`t_output_period` steps, and the final state unless it has just been shown.  Here are this loop, for any state and any function
that shows it, `display`, and `main` of the three explicit programs for the heat equation with its output.

Simplifications: the host copy of the temperatures (`ghosted_temp`, lines 178-184, 253, 266) is left out, `display` reads the chunk
that is copied (copies are the subject of C18).  What is printed is a record of the numbers; their text is the subject of C51.
-/

namespace DDC.Output

variable {τ : Type} [DecidableEq τ] {S O : Type}

/-- `n` rounds of the loop, from round `i` on (uniform_heat_equation.cpp lines 196-262, heat_equation.cpp lines 243-318,
non_uniform_heat_equation.cpp lines 283-356, heat_equation_spectral.cpp lines 170-202, characteristics_advection.cpp lines 217-274):
`step` is the body before the output, `showNext` the output, `swap` what follows.  Returns what has been shown, `last_output_iter`
and the state.  `iter - last_output_iter >= t_output_period` compares the one value of the vector (discrete_vector.hpp lines
234-243). -/
def loop (period : I64) (step : Nat → S → Res S) (showNext : Elem τ → S → Res O) (swap : S → S) :
    Nat → Nat → Elem τ → Elem τ → S → List O → Res (List O × Elem τ × S)
  | 0, _, _, last, s, out => .ok (out, last, s)
  | n + 1, i, iter, last, s, out => do
    let s ← step i s
    let v ← Elem.sub iter last
    let v ← Vect.value v
    let (out, last) ← if period.toInt ≤ v.toInt then do
        let o ← showNext iter s
        .ok (out ++ [o], iter)
      else .ok (out, last)
    let iter ← Elem.inc iter
    loop period step showNext swap n (i + 1) iter last (swap s) out

/-- From the initial output to the final one (uniform_heat_equation.cpp lines 186-270). -/
def run (period : I64) (step : Nat → S → Res S) (showNext showLast : Elem τ → S → Res O) (swap : S → S) (time : Dom τ) (one : Vect τ)
    (s : S) : Res (List O × S) := do
  let o ← showLast (Dom.front time) s
  let rest ← Dom.removeFirst time one
  let n ← Dom.size rest
  let (out, last, s) ← loop period step showNext swap n.toNat 0 (Dom.front rest) (Dom.front time) s [o]
  let back ← Dom.back time
  let b ← Elem.lt last back
  if b then do
    let o ← showLast back s
    .ok (out ++ [o], s)
  else .ok (out, s)

end DDC.Output

namespace DDC.Heat

/-- What a call of `display` prints. -/
structure Shown (K : Type) where
  time : K
  mean : K
  slice : I64
  values : List K

section

variable {K : Type} [Field K] [LinearOrder K]

/-- `display` (uniform_heat_equation.cpp lines 56-69, the same in the other programs).  `print_content` reads the elements of the
slice (C51). -/
def display (time : K) (temp : View (Dom Dim)) (mem : Mem K) : Res (Shown K) := do
  let sum ← Support.transformReduce (Dom.support temp.span.dom) 0 (fun a b => .ok (Reducer.sum a b)) (fun e => View.get mem temp [e])
  let size ← Dom.size temp.span.dom
  let y ← Dom.ofDomains [.y] [temp.span.dom]
  let ny ← Dom.size y
  let id : I64 := ny / 2
  let s ← temp.span.sliceVec Dom.spanOps [(.y, id)]
  let values ← Support.forEach (Dom.support s.dom) (fun e l => do
    let x ← View.get mem ⟨temp.buf, temp.space, .stride, s⟩ [e]
    .ok (l ++ [x])) []
  .ok ⟨time, sum / (size.toNat : K), id, values⟩

/-- The call of `display` with the main domain of a chunk (uniform_heat_equation.cpp lines 188, 254-255, 267-268; line 188 restricts to
the two domains one after the other). -/
def displayMain (coordinate : Elem Dim → Res K) (A B : Axis) (iter : Elem Dim) (v : View (Dom Dim)) (mem : Mem K) : Res (Shown K) := do
  let t ← coordinate iter
  let d ← Dom.ofDomains [.x, .y] [A.main, B.main]
  let v ← View.restrictTo v d
  display t v mem

/-- From the initial output to the end (uniform_heat_equation.cpp lines 186-271, heat_equation.cpp lines 235-327,
non_uniform_heat_equation.cpp lines 276-365): what is printed, and the memory and `ghosted_last_temp` at the end. -/
def timeLoopShown (incX incY : Elem Dim → K → K → K → Res K) (coordinate : Elem Dim → Res K) (A B : Axis) (orders : Nat → Orders)
    (period : I64) (time : Dom Dim) (last next : View (Dom Dim)) (mem : Mem K) : Res (List (Shown K) × Mem K × View (Dom Dim)) := do
  let (out, s) ← Output.run (S := Mem K × View (Dom Dim) × View (Dom Dim)) period
    (fun i s => do
      let mem ← timeStep (· + ·) incX incY A B (orders i) s.2.1 s.2.2 s.1
      .ok (mem, s.2.1, s.2.2))
    (fun iter s => displayMain coordinate A B iter s.2.2 s.1)
    (fun iter s => displayMain coordinate A B iter s.2.1 s.1)
    (fun s => (s.1, s.2.2, s.2.1)) time [(Dim.t, 1)] (mem, last, next)
  .ok (out, s.1, s.2.1)

/-- `main` with its output (uniform_heat_equation.cpp lines 72-271). Up to line 176 like `main`. -/
def mainShown [FloorRing K] (p : Params K) (period : I64) (temp : K → K → K) (junk : Nat → K) (order : List (List I64))
    (orders : Nat → Orders) : Res (List (Shown K) × Mem K × View (Dom Dim)) := do
  let (ux, xMain, xGhosted, xPre, xPost) ← Uniform.initGhosted1 .x p.xStart p.xEnd [(.x, p.nx)] [(.x, 1)]
  let A ← Axis.ofGhosted xMain xGhosted xPre xPost
  let (uy, yMain, yGhosted, yPre, yPost) ← Uniform.initGhosted1 .y p.yStart p.yEnd [(.y, p.ny)] [(.y, 1)]
  let B ← Axis.ofGhosted yMain yGhosted yPre yPost
  let invdx2 := 1 / (ux.step * ux.step)
  let invdy2 := 1 / (uy.step * uy.step)
  let dt := 1 / 2 / (p.kx * invdx2 + p.ky * invdy2)
  let n ← ceilCast ((p.endTime - p.startTime) / dt)
  let n ← Vect.addInt [(Dim.t, n)] 1
  let (ut, time) ← Uniform.init Dim.t p.startTime p.endTime n
  let (mem, last, next) ← allocate A B ux.coordinate uy.coordinate temp junk order
  timeLoopShown (uniformInc p.kx ut.step invdx2) (uniformInc p.ky ut.step invdy2) ut.coordinate A B orders period time last next mem

/-- `solve` with the output (heat_equation.cpp lines 169-327, non_uniform_heat_equation.cpp lines 211-365). -/
def solveShown [FloorRing K] (kx ky startTime endTime : K) (A B : Axis) (X Y : Sampler K) (period : I64) (temp : K → K → K)
    (junk : Nat → K) (order : List (List I64)) (orders : Nat → Orders) : Res (List (Shown K) × Mem K × View (Dom Dim)) := do
  let mx ← invMax X A.main
  let my ← invMax Y B.main
  let dt := 1 / 2 / (kx * mx + ky * my)
  let n ← ceilCast ((endTime - startTime) / dt)
  let n ← Vect.addInt [(Dim.t, n)] 1
  let (ut, time) ← Uniform.init Dim.t startTime endTime n
  let (mem, last, next) ← allocate A B X.coordinate Y.coordinate temp junk order
  timeLoopShown (distanceInc X kx ut.step) (distanceInc Y ky ut.step) ut.coordinate A B orders period time last next mem

/-- `main` with its output (heat_equation.cpp lines 84-327). -/
def mainDistancesShown [FloorRing K] (p : Params K) (period : I64) (temp : K → K → K) (junk : Nat → K) (order : List (List I64))
    (orders : Nat → Orders) : Res (List (Shown K) × Mem K × View (Dom Dim)) := do
  let (ux, xMain, xGhosted, xPre, xPost) ← Uniform.initGhosted1 .x p.xStart p.xEnd [(.x, p.nx)] [(.x, 1)]
  let A ← Axis.ofGhosted xMain xGhosted xPre xPost
  let (uy, yMain, yGhosted, yPre, yPost) ← Uniform.initGhosted1 .y p.yStart p.yEnd [(.y, p.ny)] [(.y, 1)]
  let B ← Axis.ofGhosted yMain yGhosted yPre yPost
  solveShown p.kx p.ky p.startTime p.endTime A B (uniformSampler ux) (uniformSampler uy) period temp junk order orders

/-- `main` with its output (non_uniform_heat_equation.cpp lines 145-365). -/
def mainNonUniformShown [FloorRing K] (p : Params K) (period : I64) (disX disY : Nat → K) (temp : K → K → K) (junk : Nat → K)
    (order : List (List I64)) (orders : Nat → Orders) : Res (List (Shown K) × Mem K × View (Dom Dim)) := do
  let xs ← generate (p.nx.truncate 32) p.xStart p.xEnd disX
  let xPreV ← extrapolateLeft 1 xs
  let xPostV ← extrapolateRight 1 xs
  let (ux, xMain, xGhosted, xPre, xPost) ← NonUniform.initGhosted .x xs xPreV xPostV
  let A ← Axis.ofGhosted xMain xGhosted xPre xPost
  let ys ← generate (p.ny.truncate 32) p.yStart p.yEnd disY
  let yPreV ← extrapolateLeft 1 ys
  let yPostV ← extrapolateRight 1 ys
  let (uy, yMain, yGhosted, yPre, yPost) ← NonUniform.initGhosted .y ys yPreV yPostV
  let B ← Axis.ofGhosted yMain yGhosted yPre yPost
  solveShown p.kx p.ky p.startTime p.endTime A B (nonUniformSampler ux) (nonUniformSampler uy) period temp junk order orders

end

end DDC.Heat
