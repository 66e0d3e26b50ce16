import Verif.Model.Base

/-!
# `cexa::tuple` (detail/tuple/impl)

The tuple shipped with DDC (`/repo/src/ddc/detail/tuple/impl`).  Components of
different C++ types are values of one Lean type `α`; what depends on their types
(comparison operators, constness) is given beside the values.
-/

namespace DDC.Cexa



variable {α : Type}

/-- `impl::store<Types...>` (tuple.hpp 139-474): the head and the store of the rest;
`tuple` (tuple.hpp 579-1073) holds one store and forwards to it. -/
inductive Store (α : Type) where
  | nil
  | cons (value : α) (rest : Store α)
  deriving Repr, DecidableEq

namespace Store

/-- `store(U&& u, UTypes&&... args)` (tuple.hpp 205-215): `value(u)`, `rest(args...)`;
`make_tuple`, `forward_as_tuple` and `tie` (creation.hpp 18-34) are this constructor. -/
def ofArgs : List α → Store α
  | [] => nil
  | u :: args => cons u (ofArgs args)

/-- `tuple_size` (helper.hpp 119-123): `sizeof...(Types)`. -/
def size : Store α → Nat
  | nil => 0
  | cons _ r => r.size + 1

/-- `get_value<I>` (tuple.hpp 331-350) behind `get<I>` (tuple.hpp 1082-1115), which is
disabled unless `I < sizeof...(Types)`. -/
def get : Store α → Nat → Res α
  | nil, _ => .ill
  | cons v r, i => if i = 0 then .ok v else r.get (i - 1)

/-- Assignment through the reference returned by `get<I>`. -/
def set : Store α → Nat → α → Res (Store α)
  | nil, _, _ => .ill
  | cons v r, i, x => if i = 0 then .ok (cons x r) else do
    let r ← r.set (i - 1) x
    .ok (cons v r)

/-- `get_value<Type>` (tuple.hpp 352-370) behind `get<T>` (tuple.hpp 1116-1143), where
`types` are the types of the components: the first component of that type; `get<T>` is
disabled if there is none. -/
def getType {T : Type} [DecidableEq T] (t : T) : List T → Store α → Res α
  | t' :: ts, cons v r => if t = t' then .ok v else getType t ts r
  | _, _ => .ill

/-- `operator=(store const&)` (tuple.hpp 263-276) and the converting assignments
(tuple.hpp 231-258): `value = other.value; rest = other.rest`.  `assign` is
the assignment of one component.  Sizes must agree. -/
def assign (f : α → α → α) : Store α → Store α → Res (Store α)
  | nil, nil => .ok nil
  | cons v r, cons w s => do
    let r ← assign f r s
    .ok (cons (f v w) r)
  | _, _ => .ill

/-- `swap(store&)` (tuple.hpp 401-409). -/
def swap : Store α → Store α → Res (Store α × Store α)
  | nil, nil => .ok (nil, nil)
  | cons v r, cons w s => do
    let p ← swap r s
    .ok (cons w p.1, cons v p.2)
  | _, _ => .ill

/-- `apply(f, t)` (apply.hpp 73-77, 131-146): the arguments, in order, with which `f` is
called: `get<I>(t)...` for `I` in `make_index_sequence<size>`; `make_from_tuple` (apply.hpp
80-85, 148-159) calls a constructor in the same way. -/
def applyArgs (s : Store α) : Res (List α) := (List.range s.size).mapM s.get

end Store

/-! ## Comparisons -/

/-- Value of a three-way comparison. -/
inductive Ord3 where
  | less
  | equiv
  | greater
  | unordered
  deriving DecidableEq, Repr

/-- Comparison categories `std::strong_ordering`, `weak_ordering`, `partial_ordering`. -/
inductive Cat where
  | strongOrd
  | weakOrd
  | partialOrd
  deriving DecidableEq, Repr

/-- `std::common_comparison_category_t` of two categories. -/
def Cat.common : Cat → Cat → Cat
  | .partialOrd, _ => .partialOrd
  | _, .partialOrd => .partialOrd
  | .weakOrd, _ => .weakOrd
  | _, .weakOrd => .weakOrd
  | .strongOrd, .strongOrd => .strongOrd

/-- The operators of a pair of component types `T`, `U`: `<=>` with its category if
`std::three_way_comparable_with<T, U>`, `value < rhs.value`, `rhs.value < value`,
`value == rhs.value`; an absent operator does not compile. -/
structure Comp (α : Type) where
  three : Option (Cat × (α → α → Ord3))
  lt : Option (α → α → Bool)
  gt : Option (α → α → Bool)
  eq : Option (α → α → Bool)

/-- Return type of `store::operator<=>` (tuple.hpp 428-437 with `<=>`, 439-450
without): the common category, or `weak_ordering` to which the result of the rest
must be convertible by `static_cast`. -/
def category : List (Comp α) → Res Cat
  | [] => .ok .strongOrd
  | c :: cs => do
    let k ← category cs
    match c.three with
    | some (k', _) => .ok (k'.common k)
    | none => do
      Res.guardIll (decide (k ≠ .partialOrd))
      Res.guardIll (c.lt.isSome && c.gt.isSome)
      .ok .weakOrd

/-- Body of `store::operator<=>` (tuple.hpp 428-450; `store<>`: tuple.hpp 174). -/
def compareBody : List (Comp α) → Store α → Store α → Res Ord3
  | [], .nil, .nil => .ok .equiv
  | c :: cs, .cons x xs, .cons y ys =>
    match c.three with
    | some (_, f) =>
      let res := f x y
      if res ≠ .equiv then .ok res else compareBody cs xs ys
    | none =>
      match c.lt, c.gt with
      | some lt, some gt =>
        if lt x y then .ok .less
        else if gt x y then .ok .greater
        else compareBody cs xs ys
      | _, _ => .ill
  | _, _, _ => .ill

/-- `tuple::operator<=>` (tuple.hpp 1012-1019), used unless compiled by nvcc
(macros.hpp 26-29). -/
def compare (cs : List (Comp α)) (a b : Store α) : Res Ord3 := do
  let _ ← category cs
  compareBody cs a b

/-- `tuple::operator==` (tuple.hpp 1020-1025): `(a <=> b) == 0`. -/
def eq (cs : List (Comp α)) (a b : Store α) : Res Bool := do
  let r ← compare cs a b
  .ok (decide (r = .equiv))

/-- `a < b` rewritten by the compiler as `(a <=> b) < 0`. -/
def lt (cs : List (Comp α)) (a b : Store α) : Res Bool := do
  let r ← compare cs a b
  .ok (decide (r = .less))

/-- `store::operator==` under nvcc (tuple.hpp 460-465). -/
def eqN : List (Comp α) → Store α → Store α → Res Bool
  | [], .nil, .nil => .ok true
  | c :: cs, .cons x xs, .cons y ys =>
    match c.eq with
    | some e => if e x y then eqN cs xs ys else .ok false
    | none => .ill
  | _, _, _ => .ill

/-- `store::operator<` under nvcc (tuple.hpp 466-472). -/
def ltN : List (Comp α) → Store α → Store α → Res Bool
  | [], .nil, .nil => .ok false
  | c :: cs, .cons x xs, .cons y ys =>
    match c.lt, c.eq with
    | some l, some e =>
      if l x y then .ok true
      else if e x y then ltN cs xs ys else .ok false
    | _, _ => .ill
  | _, _, _ => .ill

/-! ## `tuple_cat` -/

/-- `cartesian_product_impl` (creation.hpp 38-79): `seq1` lists the positions inside of the
tuples, `seq2` the number of the tuple; `sizes` are the sizes of the remaining tuples. -/
def cartesian (i : Nat) (seq1 seq2 : List Nat) : List Nat → List Nat × List Nat
  | [] => (seq1, seq2)
  | 0 :: sizes => cartesian (i + 1) seq1 seq2 sizes
  | n :: sizes => cartesian (i + 1) (seq1 ++ List.range n) (seq2 ++ (List.range n).map fun _ => i) sizes

/-- Tuple objects in memory, by name; `none` is the state of a component after it was
moved from. -/
abbrev Mem (α : Type) := Nat → Store (Option α)

/-- An argument of `tuple_cat`: the object and whether it is `const`. -/
structure Arg where
  obj : Nat
  const : Bool
  deriving DecidableEq

/-- Construction of one component of the result from
`get<Ints1>(std::move(get<Ints2>(tuples)))` (creation.hpp 102): the arguments were collected as lvalue
references by `forward_as_tuple(tuples...)` (creation.hpp 113), and `std::move` makes an
rvalue of each, whatever the category of the argument was; the component is moved,
or copied if the tuple is `const`. -/
def catStep (args : List Arg) (s : Mem α × List (Option α)) (ij : Nat × Nat) :
    Res (Mem α × List (Option α)) :=
  match args[ij.2]? with
  | none => .ill
  | some a => do
    let v ← (s.1 a.obj).get ij.1
    if a.const then .ok (s.1, s.2 ++ [v])
    else do
      let t ← (s.1 a.obj).set ij.1 none
      .ok (fun o => if o = a.obj then t else s.1 o, s.2 ++ [v])

/-- `tuple_cat(tuples...)` (creation.hpp 92-117). -/
def cat (m : Mem α) (args : List Arg) : Res (Mem α × Store (Option α)) := do
  let p := cartesian 0 [] [] (args.map fun a => (m a.obj).size)
  let r ← (List.zip p.1 p.2).foldlM (catStep args) (m, [])
  .ok (r.1, Store.ofArgs r.2)

/-- Constructor of `SplineEvaluatorND` from the rules given as lower, upper, lower, upper,
... (spline_evaluator_nd.hpp 160-164, with the number of rules asserted in lines
173-178): the tuples of lower and of upper rules. -/
def splitRules (dimension : Nat) (rules : Store α) : Res (Store α × Store α) := do
  Res.guardIll (decide (rules.size = 2 * dimension))
  let lo ← (List.range dimension).mapM fun i => rules.get (2 * i)
  let up ← (List.range dimension).mapM fun i => rules.get (2 * i + 1)
  .ok (Store.ofArgs lo, Store.ofArgs up)

end DDC.Cexa
