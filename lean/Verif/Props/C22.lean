import Verif.Props.C21
import Verif.Props.C24

/-!
# C22  parallel_transform_reduce is independent of the schedule

A `Plan` is what the backend may do: any tree whose leaves are lists of iterations run
on a private accumulator, the iterations of the whole tree being a permutation of the
iteration space.  Kokkos' own reducers are given by their contract.
-/

namespace DDC.Props

open Tup Spec Support

variable {τ : Type} [DecidableEq τ] {T : Type}

private theorem leaf_eq (S : Support τ) {P : T → Prop} {op : T → T → T} {e : T} (hm : MonoidOn P op e)
    (g : Elem τ → T) (hP : ∀ e, P (g e)) (l : List (List I64)) (es : List (Elem τ)) (h : l.mapM (adapter S) = .ok es)
    (a : T) (ha : P a) :
    l.foldlM (reduceAdapter S (fun a b => .ok (op a b)) (fun e => .ok (g e))) a
      = .ok (op a (product op e (es.map g))) := by
  induction l generalizing es a with
  | nil =>
    have : es = [] := (Res.ok.inj h).symm
    subst this
    exact congrArg Res.ok (hm.right a ha).symm
  | cons x l ih =>
    rw [List.mapM_cons] at h
    obtain ⟨y, h1, h⟩ := Res.bind_eq_ok.1 h
    obtain ⟨ys, h2, h⟩ := Res.bind_eq_ok.1 h
    have h : es = y :: ys := (Res.ok.inj h).symm
    subst h
    rw [List.foldlM_cons]
    simp only [reduceAdapter, h1, Res.ok_bind]
    have := ih ys h2 (op a (g y)) (hm.closed _ _ ha (hP y))
    rw [this]
    congr 1
    refine hm.assoc _ _ _ ha (hP y) (hm.product_mem ?_)
    intro z hz
    obtain ⟨w, _, rfl⟩ := List.mem_map.1 hz
    exact hP w

private theorem plan_eq (S : Support τ) {P : T → Prop} {op : T → T → T} {k : KReducer T}
    (hm : MonoidOn P op k.identity) (hj : ∀ a b, P a → P b → k.join a b = op a b)
    (g : Elem τ → T) (hP : ∀ e, P (g e)) (p : Plan) (es : List (Elem τ)) (h : p.ids.mapM (adapter S) = .ok es) :
    runPlan S k (fun a b => .ok (op a b)) (fun e => .ok (g e)) p = .ok (product op k.identity (es.map g)) := by
  induction p generalizing es with
  | leaf l =>
    simp only [runPlan]
    rw [leaf_eq S hm g hP l es h _ hm.unit, hm.left]
    refine hm.product_mem ?_
    intro z hz
    obtain ⟨w, _, rfl⟩ := List.mem_map.1 hz
    exact hP w
  | join l r ihl ihr =>
    simp only [Plan.ids, List.mapM_append] at h
    obtain ⟨xs, h1, h⟩ := Res.bind_eq_ok.1 h
    obtain ⟨ys, h2, h⟩ := Res.bind_eq_ok.1 h
    have h : es = xs ++ ys := (Res.ok.inj h).symm
    subst h
    have hx : ∀ (zs : List (Elem τ)), ∀ z ∈ zs.map g, P z := by
      intro zs z hz
      obtain ⟨w, _, rfl⟩ := List.mem_map.1 hz
      exact hP w
    simp only [runPlan, ihl xs h1, ihr ys h2, Res.ok_bind, Res.pure_eq]
    rw [hj _ _ (hm.product_mem (hx xs)) (hm.product_mem (hx ys)), List.map_append,
      hm.product_append (hx xs) (hx ys)]

/-- Any plan over the iteration space gives the reduction of the elements, started from
the identity of the reducer. -/
theorem C22_any_plan {S : Support τ} {l : List (Elem τ)} (hS : Elements S l) {n : Vect τ} (hn : S.extents = .ok n)
    {P : T → Prop} {op : T → T → T} {k : KReducer T} (hm : CommMonoidOn P op k.identity)
    (hj : ∀ a b, P a → P b → k.join a b = op a b) (g : Elem τ → T) (hP : ∀ e, P (g e)) (neutral : T) (p : Plan)
    (hp : p.ids.Perm (policy n.vals)) :
    parallelTransformReduce S neutral k (fun a b => .ok (op a b)) (fun e => .ok (g e)) p
      = .ok ((l.map g).foldr op k.identity) := by
  obtain ⟨ax, h1, h2, _, _⟩ := hS.grid
  have hax := adapter_policy h1
  have hn' : n = ax.map (fun a => (a.1, (BitVec.ofNat 64 a.2.length : I64))) := by
    have := h1.extents; rw [hn] at this; exact Res.ok.inj this
  subst hn'
  rw [vals_lengths] at hp
  obtain ⟨es, e1, e2⟩ := mapM_perm hp hax
  simp only [parallelTransformReduce, plan_eq S hm.toMonoidOn hj g hP p es e1, Res.noexcept]
  congr 1
  refine hm.product_perm ((e2.trans h2).map g) ?_
  intro z hz
  obtain ⟨w, _, rfl⟩ := List.mem_map.1 hz
  exact hP w

/-- Each reducer that has a Kokkos counterpart, on unsigned integers of any width: every
plan gives the result of the host reduction started from the identity. -/
theorem C22_unsigned {S : Support τ} {l : List (Elem τ)} (hS : Elements S l) {n : Vect τ} (hn : S.extents = .ok n)
    (r : RedName) (w : Nat) (hw : 0 < w) (g : Elem τ → BitVec w) (hg : ∀ e, r.Dom (g e)) (neutral : BitVec w)
    (p : Plan) (hp : p.ids.Perm (policy n.vals)) :
    parallelTransformReduce S neutral r.kokkos (fun a b => .ok (r.op a b)) (fun e => .ok (g e)) p
      = .ok ((l.map g).foldr r.op r.kokkos.identity) ∧
    parallelTransformReduce S neutral r.kokkos (fun a b => .ok (r.op a b)) (fun e => .ok (g e)) p
      = transformReduce S r.kokkos.identity (fun a b => .ok (r.op a b)) (fun e => .ok (g e)) := by
  obtain ⟨h1, h2⟩ := C24_unsigned r w hw
  have := C22_any_plan hS hn h1 h2 g hg neutral p hp
  exact ⟨this, by rw [this, C21_host hS h1 g hg]⟩

/-- Exact reals (and any commutative semiring), `sum` with the Kokkos reducer `Sum`. -/
theorem C22_sum {R : Type} [CommSemiring R] {S : Support τ} {l : List (Elem τ)} (hS : Elements S l) {n : Vect τ}
    (hn : S.extents = .ok n) (g : Elem τ → R) (neutral : R) (p : Plan) (hp : p.ids.Perm (policy n.vals)) :
    parallelTransformReduce S neutral ⟨0, fun d s => d + s⟩ (fun a b => .ok (Reducer.sum a b))
      (fun e => .ok (g e)) p = .ok (l.map g).sum :=
  C22_any_plan hS hn (C24_semiring R).1 (fun _ _ _ _ => rfl) g (fun _ => trivial) neutral p hp

/-! There is a plan for every domain (the hypotheses above are satisfiable). -/
example (n : Vect τ) : ∃ p : Plan, p.ids.Perm (policy n.vals) :=
  ⟨.leaf (policy n.vals), .refl _⟩

/-- The documented claim that the given neutral element takes part in the reduction is
false: it is overwritten.  On an empty domain, with `sum` and neutral element `5`, the
host algorithm returns `5` and the parallel one `0`, whatever the plan. -/
theorem C22_neutral_ignored (p : Plan) (hp : p.ids.Perm (policy [0])) :
    let S := Dom.support ([('x', (0, 0))] : Dom Char)
    S.extents = .ok [('x', 0)] ∧
    transformReduce S (5 : BitVec 32) (fun a b => .ok (RedName.sum.op a b)) (fun _ => .ok 1) = .ok 5 ∧
    parallelTransformReduce S (5 : BitVec 32) RedName.sum.kokkos (fun a b => .ok (RedName.sum.op a b))
      (fun _ => .ok 1) p = .ok 0 := by
  have hd : Valid ([('x', (0, 0))] : Dom Char) := by
    refine ⟨by decide, ?_⟩
    intro q hq
    simp only [Tup.tags, List.map_cons, List.map_nil, List.mem_cons, List.not_mem_nil, or_false] at hq
    rcases hq with rfl; decide
  have hl : Elements (Dom.support ([('x', (0, 0))] : Dom Char)) [] := by
    refine .contiguous hd .nil ?_
    intro e
    rw [← mem_cart_axes hd]
    have : cart (axes ([('x', (0, 0))] : Dom Char)) = [] := by decide
    rw [this]
  refine ⟨by decide, ?_, ?_⟩
  · simp only [transformReduce]
    rw [show (Dom.support ([('x', (0, 0))] : Dom Char)).extents = .ok [('x', 0)] from by decide]
    simp [transformReduceSerial, vals, loop, Res.noexcept]
  · have := C22_any_plan hl (n := [('x', 0)]) (by decide) (C24_unsigned .sum 32 (by decide)).1
      (C24_unsigned .sum 32 (by decide)).2 (fun _ => 1) (fun _ => trivial) 5 p hp
    simpa [RedName.kokkos] using this

end DDC.Props
