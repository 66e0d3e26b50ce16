import Verif.Model.Domain
import Verif.Model.Strided
import Verif.Model.Sparse

/-!
# Loops and reductions over supports

Model of `/repo/src/ddc/for_each.hpp`, `/repo/src/ddc/transform_reduce.hpp`,
`/repo/src/ddc/parallel_for_each.hpp`, `/repo/src/ddc/parallel_transform_reduce.hpp` and
`/repo/src/ddc/ddc_to_kokkos_execution_policy.hpp`.

The functor is any state transformer `Elem τ → σ → Res σ`: the state stands for
everything it reads or writes.
-/

namespace DDC

/-- `noexcept` function: an escaping exception calls `std::terminate`. -/
def Res.noexcept {α : Type u} : Res α → Res α
  | .throw => .abort
  | r => r

/-- What the loops use of their argument `domain`: the pack, `extents()` and
`operator()(discrete_vector)`. -/
structure Support (τ : Type) where
  tags : List τ
  extents : Res (Vect τ)
  at' : Vect τ → Res (Elem τ)

variable {τ : Type} [DecidableEq τ]

/-- A contiguous domain as a support (discrete_domain.hpp lines 146-149, 191-195). -/
def Dom.support (d : Dom τ) : Support τ := ⟨Tup.tags d, Dom.extents d, Dom.at' d⟩
/-- A strided domain as a support (strided_discrete_domain.hpp lines 161-164, 216-220). -/
def SDom.support (d : SDom τ) : Support τ := ⟨Tup.tags d, .ok (SDom.extents d), SDom.at' d⟩
/-- A sparse domain as a support (sparse_discrete_domain.hpp lines 213-216, 266-270). -/
def SpDom.support (d : SpDom τ) : Support τ := ⟨Tup.tags d, .ok (SpDom.extents d), SpDom.at' d⟩

namespace Support

variable {σ : Type}

/-- The loop `for (DiscreteVectorElement ii = start; ii < n; ++ii) body(ii)`; `++ii`
cannot overflow since `ii < n`. -/
def loop (n : Int) (body : Int → σ → Res σ) (ii : Int) (s : σ) : Res σ :=
  if ii < n then body ii s >>= loop n body (ii + 1) else .ok s
termination_by (n - ii).toNat
decreasing_by omega

/-- `domain(discrete_vector_type(is...))` (for_each.hpp line 28). -/
def leaf (S : Support τ) (is : List I64) : Res (Elem τ) := S.at' (S.tags.zip is)

/-- `host_for_each_serial` / `device_for_each_serial` (for_each.hpp lines 19-51).  The
array `size` is passed without its first `sizeof...(Is)` entries, `is` are the outer
loop indices. -/
def forEachSerial (S : Support τ) (f : Elem τ → σ → Res σ) : List I64 → List I64 → σ → Res σ
  | [], is, s => do
    let e ← leaf S is
    f e s
  | n :: size, is, s => loop n.toInt (fun ii => forEachSerial S f size (is ++ [BitVec.ofInt 64 ii])) 0 s

/-- `host_for_each` / `device_for_each` (for_each.hpp lines 59-76). -/
def forEach (S : Support τ) (f : Elem τ → σ → Res σ) (s : σ) : Res σ := Res.noexcept do
  let n ← S.extents
  forEachSerial S f n.vals [] s

/-- `host_transform_reduce_serial` / `device_transform_reduce_serial`
(transform_reduce.hpp lines 37-113). -/
def transformReduceSerial (S : Support τ) {T : Type} (neutral : T) (reduce : T → T → Res T)
    (transform : Elem τ → Res T) : List I64 → List I64 → Res T
  | [], is => do
    let e ← leaf S is
    transform e
  | n :: size, is =>
    loop n.toInt (fun ii result => do
      let r ← transformReduceSerial S neutral reduce transform size (is ++ [BitVec.ofInt 64 ii])
      reduce r result) 0 neutral

/-- `host_transform_reduce` / `device_transform_reduce` (transform_reduce.hpp lines 125-161). -/
def transformReduce (S : Support τ) {T : Type} (neutral : T) (reduce : T → T → Res T)
    (transform : Elem τ → Res T) : Res T := Res.noexcept do
  let n ← S.extents
  transformReduceSerial S neutral reduce transform n.vals []

/-! ## Parallel iteration space -/

/-- The index tuples of an `MDRangePolicy` with bounds `0` and `size`. -/
def mdRange : List I64 → List (List I64)
  | [] => [[]]
  | n :: size => ((List.range n.toInt.toNat).map (fun i => BitVec.ofNat 64 i)).flatMap
      (fun i => (mdRange size).map (fun r => i :: r))

/-- `ddc_to_kokkos_execution_policy` (ddc_to_kokkos_execution_policy.hpp lines 16-44):
the set of index tuples the backend runs, listed in one order.  Rank 0 is
`RangePolicy(0, 1)`, rank 1 `RangePolicy(0, size[0])`, otherwise an `MDRangePolicy`. -/
def policy (size : List I64) : List (List I64) :=
  match size with
  | [] => (List.range 1).map (fun i => [BitVec.ofNat 64 i])
  | [n] => (List.range n.toInt.toNat).map (fun i => [BitVec.ofNat 64 i])
  | _ => mdRange size

/-- `ForEachKokkosLambdaAdapter::operator()` (parallel_for_each.hpp lines 42-52): for
rank 0 the index is ignored. -/
def adapter (S : Support τ) (ids : List I64) : Res (Elem τ) :=
  match S.tags with
  | [] => S.at' []
  | _ => S.at' (S.tags.zip ids)

/-- `parallel_for_each` (parallel_for_each.hpp lines 59-130) under one schedule: the
backend runs the iterations of the policy in the order `sched`. -/
def runSchedule (S : Support τ) (f : Elem τ → σ → Res σ) (sched : List (List I64)) (s : σ) : Res σ :=
  sched.foldlM (fun s ids => do
    let e ← adapter S ids
    f e s) s

/-- `TransformKokkosLambdaAdapter::operator()` (parallel_transform.hpp lines 40-44), the
functor that `parallel_transform` (lines 57-118) hands to `parallel_for_each`; the chunk
is a function of its elements. -/
def transformAdapter {V : Type} (functor : V → V) (i : Elem τ) (chunk : Elem τ → V) : Elem τ → V :=
  fun j => if j = i then functor (chunk i) else chunk j

end Support
end DDC
