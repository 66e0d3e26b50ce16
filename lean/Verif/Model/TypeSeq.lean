import Verif.Model.Base

/-!
# Type sequences

Model of `/repo/src/ddc/detail/type_seq.hpp`.  A C++ type is an element of an
arbitrary type `τ` of tags with decidable equality (`std::is_same_v`), a
`TypeSeq<Tags...>` is a `List τ`.
-/

namespace DDC.TypeSeq

variable {τ : Type u} [DecidableEq τ]

/-- `std::numeric_limits<std::size_t>::max()`. -/
def sizeMax : Nat := 2 ^ 64 - 1

/-- `TypeSeqRank<SingleType<Q>, TypeSeq<Tags...>>::present`
(type_seq.hpp lines 32-54). -/
def present (q : τ) : List τ → Bool
  | [] => false
  | h :: t => if q = h then true else present q t

/-- `TypeSeqRank<SingleType<Q>, TypeSeq<Tags...>>::val`
(type_seq.hpp lines 32-54).  Simplification: `std::size_t` is `Nat` here, a pack
never has `2^64` elements. -/
def rank (q : τ) : List τ → Nat
  | [] => sizeMax
  | h :: t =>
    if q = h then 0
    else if present q t then 1 + rank q t else sizeMax

/-- `TypeSeqElement<I, TypeSeq<Tags...>>::type` (type_seq.hpp lines 62-71);
`none` when the program is ill-formed. -/
def element (i : Nat) (ts : List τ) : Option τ := ts[i]?

/-- `TypeSeqRemove<A, B, R>::type` (type_seq.hpp lines 73-95). -/
def removeAcc : List τ → List τ → List τ → List τ
  | [], _, r => r
  | h :: t, b, r => if present h b then removeAcc t b r else removeAcc t b (r ++ [h])

/-- `type_seq_remove_t<A, B>` (type_seq.hpp lines 239-240). -/
def remove (a b : List τ) : List τ := removeAcc a b []

/-- `TypeSeqMerge<A, B, R>::type` (type_seq.hpp lines 97-119). -/
def mergeAcc (a : List τ) : List τ → List τ → List τ
  | [], r => r
  | h :: t, r => if present h a then mergeAcc a t r else mergeAcc a t (r ++ [h])

/-- `type_seq_merge_t<A, B>` (type_seq.hpp lines 242-243): `R` starts as `A`. -/
def merge (a b : List τ) : List τ := mergeAcc a b a

/-- `type_seq_cat_t<A, B>` (type_seq.hpp lines 121-132, 245-246). -/
def cat (a b : List τ) : List τ := a ++ b

/-- `TypeSeqReplaceSingle<A, B, C>::type` (type_seq.hpp lines 134-157); `none`
when no specialisation matches (packs of different lengths). -/
def replaceSingle (a : τ) : List τ → List τ → Option τ
  | [], [] => some a
  | hb :: tb, hc :: tc => if a = hb then some hc else replaceSingle a tb tc
  | _, _ => none

/-- `TypeSeqReplace<A, B, C, R>::type` (type_seq.hpp lines 159-188). -/
def replaceAcc : List τ → List τ → List τ → List τ → Option (List τ)
  | [], _, _, r => some r
  | h :: t, b, c, r =>
    match replaceSingle h b c with
    | some x => replaceAcc t b c (r ++ [x])
    | none => none

/-- `type_seq_replace_t<A, B, C>` (type_seq.hpp lines 248-250). -/
def replace (a b c : List τ) : Option (List τ) := replaceAcc a b c []

/-- `type_seq_contains_v<A, B>` (type_seq.hpp lines 228-230): every tag of `A`
is present in `B`. -/
def contains (a b : List τ) : Bool := a.all (fun q => present q b)

/-- `type_seq_same_v<A, B>` (type_seq.hpp lines 221-222). -/
def same (a b : List τ) : Bool := contains a b && contains b a

/-- `type_seq_is_unique_v<TypeSeq<Tags...>>` (type_seq.hpp lines 252-256). -/
def isUnique (a : List τ) : Bool :=
  a.all (fun q => (remove a [q]).length == a.length - 1)

end DDC.TypeSeq
