import Verif.Model.ForEach

/-!
# Reducers, parallel reductions and scans

Model of `/repo/src/ddc/reducer.hpp`, `/repo/src/ddc/parallel_transform_reduce.hpp` and
`/repo/src/ddc/parallel_transform_scan.hpp`.

The Kokkos reducers (`init`, `join`) and the algorithms `parallel_reduce` and
`parallel_scan` are dependencies; their contract is stated here and trusted:
* `reduction_identity` of Kokkos: `0` for `Sum`, `LOr`, `BOr`, `1` for `Prod`, `LAnd`,
  `~0` for `BAnd`, the largest value for `Min`, the lowest for `Max`;
* `parallel_reduce` splits the iterations in any way, runs each part on a private
  accumulator set by `init`, combines accumulators with `join` along any tree and
  *overwrites* the result variable;
* `parallel_scan` splits the range in consecutive blocks, runs every block once with
  `final = false` on a private accumulator, and once with `final = true` on the
  accumulator of all previous blocks.
-/

namespace DDC

namespace Reducer

variable {T : Type}

/-- `reducer::sum` (reducer.hpp lines 13-23). -/
def sum [Add T] (lhs rhs : T) : T := lhs + rhs
/-- `reducer::prod` (lines 25-35). -/
def prod [Mul T] (lhs rhs : T) : T := lhs * rhs
/-- `reducer::land` (lines 37-47): `&&` yields a `bool` converted back to the type. -/
def land {w : Nat} (lhs rhs : BitVec w) : BitVec w := if lhs ≠ 0 ∧ rhs ≠ 0 then 1 else 0
/-- `reducer::lor` (lines 49-59). -/
def lor {w : Nat} (lhs rhs : BitVec w) : BitVec w := if lhs ≠ 0 ∨ rhs ≠ 0 then 1 else 0
/-- `reducer::band` (lines 61-71). -/
def band {w : Nat} (lhs rhs : BitVec w) : BitVec w := lhs &&& rhs
/-- `reducer::bor` (lines 73-83). -/
def bor {w : Nat} (lhs rhs : BitVec w) : BitVec w := lhs ||| rhs
/-- `reducer::bxor` (lines 85-95). -/
def bxor {w : Nat} (lhs rhs : BitVec w) : BitVec w := lhs ^^^ rhs
/-- `reducer::min` (lines 97-107). -/
def min [LT T] [DecidableLT T] (lhs rhs : T) : T := if lhs < rhs then lhs else rhs
/-- `reducer::max` (lines 109-119). -/
def max [LT T] [DecidableLT T] (lhs rhs : T) : T := if lhs > rhs then lhs else rhs
/-- `reducer::minmax` (lines 121-133). -/
def minmax [LT T] [DecidableLT T] (lhs rhs : T × T) : T × T :=
  (if lhs.1 < rhs.1 then lhs.1 else rhs.1, if lhs.2 > rhs.2 then lhs.2 else rhs.2)

end Reducer

/-- A Kokkos reducer: `init` stores `identity`, `join(dest, src)` stores `join dest src`. -/
structure KReducer (T : Type) where
  identity : T
  join : T → T → T

/-- The DDC reducers that have a Kokkos counterpart on integer types
(`DdcToKokkosReducer`, parallel_transform_reduce.hpp lines 28-80).  `bxor` has none
(lines 64-68) and `minmax` maps to a reducer with another value type (lines 82-86);
both fail to compile in the parallel algorithms. -/
inductive RedName
  | sum | prod | land | lor | band | bor | min | max
  deriving DecidableEq, Repr

namespace RedName

/-- The DDC functor on a `w`-bit unsigned type. -/
def op {w : Nat} : RedName → BitVec w → BitVec w → BitVec w
  | .sum => Reducer.sum
  | .prod => Reducer.prod
  | .land => Reducer.land
  | .lor => Reducer.lor
  | .band => Reducer.band
  | .bor => Reducer.bor
  | .min => Reducer.min
  | .max => Reducer.max

/-- The Kokkos reducer chosen by `ddc_to_kokkos_reducer_t`
(parallel_transform_reduce.hpp lines 28-90): `Kokkos::Sum`, `Prod`, `LAnd`, `LOr`,
`BAnd`, `BOr`, `Min`, `Max`; `join` as in `Kokkos_Parallel_Reduce.hpp` (trusted). -/
def kokkos {w : Nat} : RedName → KReducer (BitVec w)
  | .sum => ⟨0, fun dest src => dest + src⟩
  | .prod => ⟨1, fun dest src => dest * src⟩
  | .land => ⟨1, fun dest src => if dest ≠ 0 ∧ src ≠ 0 then 1 else 0⟩
  | .lor => ⟨0, fun dest src => if dest ≠ 0 ∨ src ≠ 0 then 1 else 0⟩
  | .band => ⟨BitVec.allOnes w, fun dest src => dest &&& src⟩
  | .bor => ⟨0, fun dest src => dest ||| src⟩
  | .min => ⟨BitVec.allOnes w, fun dest src => if src < dest then src else dest⟩
  | .max => ⟨0, fun dest src => if src > dest then src else dest⟩

/-- Values on which the identity is neutral: all of them, except for the logical
reducers that only produce `0` and `1`. -/
def Dom {w : Nat} : RedName → BitVec w → Prop
  | .land, x => x = 0 ∨ x = 1
  | .lor, x => x = 0 ∨ x = 1
  | _, _ => True

end RedName

namespace Support

variable {τ : Type} [DecidableEq τ] {T : Type}

/-- One way in which `parallel_reduce` may run: a tree whose leaves are lists of
iterations run on one private accumulator. -/
inductive Plan
  | leaf (ids : List (List I64))
  | join (l r : Plan)

/-- All iterations of a plan. -/
def Plan.ids : Plan → List (List I64)
  | .leaf l => l
  | .join l r => l.ids ++ r.ids

/-- `TransformReducerKokkosLambdaAdapter::operator()` (parallel_transform_reduce.hpp
lines 117-127) on one iteration. -/
def reduceAdapter (S : Support τ) (reducer : T → T → Res T) (functor : Elem τ → Res T) (a : T)
    (ids : List I64) : Res T := do
  let e ← adapter S ids
  let x ← functor e
  reducer a x

/-- The run of one plan. -/
def runPlan (S : Support τ) (k : KReducer T) (reducer : T → T → Res T) (functor : Elem τ → Res T) :
    Plan → Res T
  | .leaf l => l.foldlM (reduceAdapter S reducer functor) k.identity
  | .join l r => do
    let a ← runPlan S k reducer functor l
    let b ← runPlan S k reducer functor r
    pure (k.join a b)

/-- `transform_reduce_kokkos` / `parallel_transform_reduce`
(parallel_transform_reduce.hpp lines 148-260) under the plan chosen by the backend:
`result` is first set to `neutral`, then overwritten by `parallel_reduce`. -/
def parallelTransformReduce (S : Support τ) (neutral : T) (k : KReducer T) (reducer : T → T → Res T)
    (functor : Elem τ → Res T) (plan : Plan) : Res T := Res.noexcept do
  let _result := neutral
  runPlan S k reducer functor plan

end Support

/-! ## Scans -/

namespace Scan

variable {T κ : Type} [DecidableEq κ]

/-- `ScanType` (parallel_transform_scan.hpp line 28). -/
inductive Kind | inclusive | exclusive
  deriving DecidableEq, Repr

/-- `TransformScanKokkosLambdaAdapter::operator()` (lines 86-103) for one element `e` of
the scanned line, on the accumulator and the memory of the output chunk (a function of
the element).  `functor` may read the memory. -/
def adapter (kind : Kind) (reducer : T → T → T) (functor : (κ → T) → κ → T) (isFinal : Bool)
    (st : T × (κ → T)) (e : κ) : T × (κ → T) :=
  let mem1 : κ → T := if kind = .exclusive ∧ isFinal then (fun j => if j = e then st.1 else st.2 j) else st.2
  let acc := reducer st.1 (functor mem1 e)
  let mem2 : κ → T := if kind = .inclusive ∧ isFinal then (fun j => if j = e then acc else mem1 j) else mem1
  (acc, mem2)

/-- First pass over one block: a private accumulator set by `init`, `final = false`. -/
def blockTotal (kind : Kind) (k : KReducer T) (reducer : T → T → T) (functor : (κ → T) → κ → T)
    (mem : κ → T) (block : List κ) : T :=
  (block.foldl (adapter kind reducer functor false) (k.identity, mem)).1

/-- The starting accumulators of the second pass: the join of the totals of the previous
blocks. -/
def starts (kind : Kind) (k : KReducer T) (reducer : T → T → T) (functor : (κ → T) → κ → T)
    (mem : κ → T) : List (List κ) → T → List (List κ × T)
  | [], _ => []
  | block :: rest, acc =>
    (block, acc) :: starts kind k reducer functor mem rest
      (k.join acc (blockTotal kind k reducer functor mem block))

/-- Second pass: the blocks, in the order `order` in which the backend runs them, with
`final = true`. -/
def finalPass (kind : Kind) (reducer : T → T → T) (functor : (κ → T) → κ → T)
    (order : List (List κ × T)) (mem : κ → T) : κ → T :=
  order.foldl (fun mem b => (b.1.foldl (adapter kind reducer functor true) (b.2, mem)).2) mem

/-- Choices of the backend for one call of `Kokkos::parallel_scan`: how it cuts the range
in blocks and in which order it runs the second pass. -/
structure Choice (κ T : Type) where
  blocks : List κ → List (List κ)
  order : List (List κ × T) → List (List κ × T)

/-- `Kokkos::parallel_scan` over one line of elements (parallel_transform_scan.hpp lines
130-141). -/
def scanLine (kind : Kind) (k : KReducer T) (reducer : T → T → T) (functor : (κ → T) → κ → T)
    (c : Choice κ T) (line : List κ) (mem : κ → T) : κ → T :=
  finalPass kind reducer functor
    (c.order (starts kind k reducer functor mem (c.blocks line) k.identity)) mem

variable {τ : Type} [DecidableEq τ]

/-- `parallel_transform_scan` (parallel_transform_scan.hpp lines 106-143) on a chunk over
the contiguous domain `d`, along dimension `q`; the memory of the chunk is a function of
the elements over the pack of `d`, `choice` gives the backend's choices for each line.
The element passed to the functor and to the chunk as `(m_delem, delem_scan)` is the
merged one. -/
def transformScan (kind : Kind) (k : KReducer T) (reducer : T → T → T)
    (functor : (Elem τ → T) → Elem τ → T) (choice : Elem τ → Choice (Elem τ) T)
    (d : Dom τ) (q : τ) (mem : Elem τ → T) : Res (Elem τ → T) := do
  let scan ← Dom.ofDomains [q] [d]
  let batch ← Dom.removeDimsOf d scan.tags
  Support.forEach batch.support (fun ibatch mem => do
    let n ← Dom.extents scan
    let ids := Support.policy n.vals
    let line ← ids.mapM (fun i => do
      let e ← Dom.at' scan (scan.tags.zip i)
      Tup.ofTuples d.tags [ibatch, e])
    pure (scanLine kind k reducer functor (choice ibatch) line mem)) mem

end Scan
end DDC
