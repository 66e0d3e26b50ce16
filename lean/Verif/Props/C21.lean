import Verif.Lemmas.Reducer
import Verif.Lemmas.Enumerate
import Mathlib.Algebra.BigOperators.Group.List.Basic

/-!
# C21  host_transform_reduce equals the mathematical reduction

`Elements S l` says that `l` lists the elements of the domain behind `S` once each.  The
reduction is associative with unit `neutral` on a set `P` of values containing the
transformed elements.
-/

namespace DDC.Props

open Tup Spec

variable {τ : Type} [DecidableEq τ] {T : Type}

/-- A commutative reduction: the result does not depend on the order of the elements. -/
theorem C21_host {S : Support τ} {l : List (Elem τ)} (hS : Elements S l) {P : T → Prop} {op : T → T → T}
    {neutral : T} (hm : CommMonoidOn P op neutral) (g : Elem τ → T) (hP : ∀ e, P (g e)) :
    Support.transformReduce S neutral (fun a b => .ok (op a b)) (fun e => .ok (g e))
      = .ok ((l.map g).foldr op neutral) := by
  obtain ⟨ax, h1, h2, _, _⟩ := hS.grid
  rw [Support.transformReduce_eq h1 hm.toMonoidOn g hP]
  congr 1
  refine hm.product_perm ?_ ?_
  · exact ((cart ax).map g).reverse_perm.trans (h2.map g)
  · intro x hx
    obtain ⟨e, _, rfl⟩ := List.mem_map.1 (List.mem_reverse.1 hx)
    exact hP e

/-- Without commutativity: the elements are combined in decreasing lexicographic order,
as the accumulated result is passed as second argument. -/
theorem C21_order {S : Support τ} {l : List (Elem τ)} (hS : Elements S l) (hl : l.Pairwise Lex) {P : T → Prop}
    {op : T → T → T} {neutral : T} (hm : MonoidOn P op neutral) (g : Elem τ → T) (hP : ∀ e, P (g e)) :
    Support.transformReduce S neutral (fun a b => .ok (op a b)) (fun e => .ok (g e))
      = .ok ((l.reverse.map g).foldr op neutral) := by
  obtain ⟨ax, h1, h2, h3, _⟩ := hS.grid
  have : cart ax = l := by
    refine List.Perm.eq_of_pairwise ?_ h3 hl h2
    intro a b ha hb hab hba
    exfalso
    clear ha hb h1 h2 h3 hl hS
    induction a generalizing b with
    | nil => exact hab
    | cons p a ih =>
      cases b with
      | nil => exact hab
      | cons q b =>
        obtain ⟨t, x⟩ := p
        obtain ⟨u, y⟩ := q
        simp only [Spec.Lex] at hab hba
        rcases hab with h | ⟨rfl, h⟩
        · rcases hba with h' | ⟨rfl, _⟩ <;> omega
        · rcases hba with h' | ⟨_, h'⟩
          · omega
          · exact ih b h h'
  subst this
  rw [Support.transformReduce_eq h1 hm g hP, List.map_reverse]
  rfl

/-- An empty domain (of any positive rank, whichever extents are zero) yields `neutral`. -/
theorem C21_empty {S : Support τ} (hS : Elements S []) {P : T → Prop} {op : T → T → T} {neutral : T}
    (hm : MonoidOn P op neutral) (g : Elem τ → T) (hP : ∀ e, P (g e)) :
    Support.transformReduce S neutral (fun a b => .ok (op a b)) (fun e => .ok (g e)) = .ok neutral :=
  C21_order hS .nil hm g hP

/-- The sum of the transformed elements in any commutative additive monoid. -/
theorem C21_sum {M : Type} [AddCommMonoid M] {S : Support τ} {l : List (Elem τ)} (hS : Elements S l)
    (g : Elem τ → M) :
    Support.transformReduce S 0 (fun a b => .ok (Reducer.sum a b)) (fun e => .ok (g e)) = .ok (l.map g).sum := by
  rw [C21_host hS (P := fun _ => True) (op := Reducer.sum) ⟨⟨trivial, fun _ _ _ _ => trivial,
    fun a b c _ _ _ => add_assoc a b c, fun a _ => zero_add a, fun a _ => add_zero a⟩,
    fun a b _ _ => add_comm a b⟩ g (fun _ => trivial), List.sum]
  rfl

/-- Rank 0: the result is the transform of the only element; `neutral` and the reduction
are not used. -/
theorem C21_rank0 (neutral : T) (reduce : T → T → Res T) (f : Elem τ → Res T) :
    Support.transformReduce (Dom.support ([] : Dom τ)) neutral reduce f = Res.noexcept (f []) := rfl

omit [DecidableEq τ] in
/-- The functions are `noexcept`: an exception never escapes. -/
theorem C21_noexcept (S : Support τ) (neutral : T) (reduce : T → T → Res T) (f : Elem τ → Res T) :
    Support.transformReduce S neutral reduce f ≠ .throw := by
  unfold Support.transformReduce
  generalize (do let n ← S.extents; Support.transformReduceSerial S neutral reduce f n.vals []) = r
  cases r <;> simp [Res.noexcept]

/-! Non-vacuity: the elements of a 2 × 1 domain. -/
example : Elements (Dom.support ([('x', (1, 3)), ('y', (4, 5))] : Dom Char))
    [[('x', 2), ('y', 4)], [('x', 1), ('y', 4)]] := by
  have hd : Valid ([('x', (1, 3)), ('y', (4, 5))] : Dom Char) := by
    refine ⟨by decide, ?_⟩
    intro q hq
    simp only [tags, List.map_cons, List.map_nil, List.mem_cons, List.not_mem_nil, or_false] at hq
    rcases hq with rfl | rfl <;> decide
  refine .contiguous hd (by decide) ?_
  intro e
  rw [← mem_cart_axes hd]
  have : cart (axes ([('x', (1, 3)), ('y', (4, 5))] : Dom Char)) = [[('x', 1), ('y', 4)], [('x', 2), ('y', 4)]] := by
    decide
  rw [this]
  simp only [List.mem_cons, List.not_mem_nil, or_false]
  exact or_comm

end DDC.Props
