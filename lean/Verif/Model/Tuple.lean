import Verif.Model.TypeSeq

/-!
# Tagged tuples: DiscreteElement, DiscreteVector, TaggedVector

Model of `/repo/src/ddc/discrete_element.hpp`, `/repo/src/ddc/discrete_vector.hpp`
and `/repo/src/ddc/detail/tagged_vector.hpp`.

A `DiscreteElement<Tags...>` is a `std::array` of values whose position `i`
belongs to the `i`-th tag.  It is represented by the list of pairs
`(tag, value)` in pack order.
-/

namespace DDC

/-- A tagged tuple: `m_values` zipped with the pack `Tags...`
(discrete_element.hpp line 178, discrete_vector.hpp line 286,
tagged_vector.hpp line 242). -/
abbrev Tup (τ α : Type) := List (τ × α)

namespace Tup

variable {τ α β γ : Type} [DecidableEq τ]

/-- The pack `Tags...`. -/
def tags (x : Tup τ α) : List τ := x.map Prod.fst

/-- The array `m_values`. -/
def vals (x : Tup τ α) : List α := x.map Prod.snd

/-- `uid<Q>()` / `get<Q>()`: `m_values[type_seq_rank_v<Q, tags_seq>]` guarded by
`static_assert(in_tags_v<Q, tags_seq>)` (discrete_element.hpp lines 223-235,
discrete_vector.hpp lines 348-360, tagged_vector.hpp lines 317-329). -/
def get (q : τ) (x : Tup τ α) : Res α :=
  if TypeSeq.present q x.tags then
    match x.vals[TypeSeq.rank q x.tags]? with
    | some v => .ok v
    | none => .ub
  else .ill

/-- `get_or<Q>(default)` (discrete_vector.hpp lines 362-373,
tagged_vector.hpp lines 331-341). -/
def getOr (q : τ) (x : Tup τ α) (dflt : α) : Res α :=
  if TypeSeq.present q x.tags then get q x else .ok dflt

/-- `take<Q>(head, tail...)` with its two `static_assert`s
(discrete_element.hpp lines 112-130, discrete_vector.hpp lines 203-221,
tagged_vector.hpp lines 188-209). -/
def take (q : τ) : List (Tup τ α) → Res (Tup τ α)
  | [] => .ill
  | h :: t =>
    if TypeSeq.contains [q] h.tags then
      if t.all (fun x => !TypeSeq.contains [q] x.tags) then .ok h else .ill
    else take q t

/-- `Tup<Tags...>(delems...)`: the value of each tag is taken from the unique
argument that has the tag (discrete_element.hpp lines 195-199,
discrete_vector.hpp lines 303-307, tagged_vector.hpp lines 259-263). -/
def ofTuples : List τ → List (Tup τ α) → Res (Tup τ α)
  | [], _ => .ok []
  | q :: qs, xs =>
    do
      let x ← take q xs
      let v ← get q x
      let r ← ofTuples qs xs
      pure ((q, v) :: r)

/-- `select<QueryTags...>(x)` (discrete_element.hpp lines 98-110,
discrete_vector.hpp lines 189-201, tagged_vector.hpp lines 172-184). -/
def select (qs : List τ) (x : Tup τ α) : Res (Tup τ α) := ofTuples qs [x]

/-- `select_or<Q>(x, default)` (discrete_element.hpp lines 86-96,
discrete_vector.hpp lines 81-91). -/
def selectOr (q : τ) (x dflt : Tup τ α) : Res (Tup τ α) :=
  if TypeSeq.present q x.tags then select [q] x else .ok dflt

/-- `operator==`: fold of `&&` over the tags of the left operand
(discrete_element.hpp lines 326-332, discrete_vector.hpp lines 333-337,
tagged_vector.hpp lines 300-305).  Every operand of the fold must compile, so a
tag missing on the right makes the whole expression ill-formed. -/
def eqFold [DecidableEq α] : Tup τ α → Tup τ α → Res Bool
  | [], _ => .ok true
  | (t, v) :: l, r =>
    do
      let w ← get t r
      let b ← eqFold l r
      pure (decide (v = w) && b)

/-- Replace the value of tag `q` by `f` of it: the effect of
`m_values[type_seq_rank_v<Q, tags_seq>] op= x`. -/
def modify (q : τ) (f : α → Res α) : Tup τ α → Res (Tup τ α)
  | [] => .ill
  | (t, v) :: l =>
    if q = t then
      do
        let w ← f v
        pure ((t, w) :: l)
    else
      do
        let l' ← modify q f l
        pure ((t, v) :: l')

/-- `x op= y` with `y` over a sub-pack of the tags of `x`: the fold
`((m_values[rank<OTags>] op= y.get<OTags>()), ...)` with its `static_assert`
(discrete_element.hpp lines 279-309, discrete_vector.hpp lines 411-449,
tagged_vector.hpp lines 349-388). -/
def opAssign (op : α → β → Res α) : Tup τ α → Tup τ β → Res (Tup τ α)
  | x, [] => .ok x
  | x, (t, w) :: ys =>
    do
      let x' ← modify t (fun v => op v w) x
      opAssign op x' ys

/-- Pack expansion `Tup<Tags...>((f(get<Tags>(x)))...)` of a unary function. -/
def mapVals (f : α → Res β) : Tup τ α → Res (Tup τ β)
  | [] => .ok []
  | (t, v) :: l =>
    do
      let w ← f v
      let l' ← mapVals f l
      pure ((t, w) :: l')

/-- Pack expansion `Tup<Tags...>((f(get<Tags>(x), get<Tags>(y)))...)` of a
binary function over the tags of the left operand. -/
def zipVals (f : α → β → Res γ) : Tup τ α → Tup τ β → Res (Tup τ γ)
  | [], _ => .ok []
  | (t, v) :: l, y =>
    do
      let w ← get t y
      let z ← f v w
      let l' ← zipVals f l y
      pure ((t, z) :: l')

end Tup
end DDC
