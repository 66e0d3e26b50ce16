import Verif.Lemmas.Tuple

/-!
# C02  Tag-order independence of elements and vectors
-/

namespace DDC.Props

open Tup

variable {τ α : Type} [DecidableEq τ]

/-- `select<Qs...>(x)` has exactly the requested tags in the requested order and
keeps the value of each of them; it is ill-formed iff a requested tag is absent. -/
theorem C02_select (qs : List τ) (x : Tup τ α) :
    ((∀ q ∈ qs, q ∈ tags x) →
      ∃ r, select qs x = .ok r ∧ tags r = qs ∧ ∀ q ∈ qs, get q r = get q x) ∧
    ((∃ q ∈ qs, q ∉ tags x) → select qs x = .ill) :=
  ⟨select_ok, fun ⟨_, hq, h⟩ => select_ill hq h⟩

/-- The constructor merging several tuples: well-formed exactly when every
requested tag belongs to exactly one argument, and then it keeps all values. -/
theorem C02_ctor (qs : List τ) (xs : List (Tup τ α)) :
    ((∃ r, ofTuples qs xs = .ok r) ↔
      ∀ q ∈ qs, ∃ l x r, xs = l ++ x :: r ∧ q ∈ tags x ∧
        (∀ y ∈ l, q ∉ tags y) ∧ ∀ y ∈ r, q ∉ tags y) ∧
    ∀ r, ofTuples qs xs = .ok r →
      tags r = qs ∧ ∀ q ∈ qs, ∀ x ∈ xs, q ∈ tags x → get q r = get q x := by
  refine ⟨⟨fun ⟨r, h⟩ => ofTuples_inv h, fun h => ?_⟩, ?_⟩
  · obtain ⟨r, h1, _⟩ := ofTuples_ok h
    exact ⟨r, h1⟩
  · intro r h
    obtain ⟨r', h1, h2, h3⟩ := ofTuples_ok (ofTuples_inv h)
    rw [h] at h1; injection h1 with h1; subst h1
    exact ⟨h2, h3⟩

/-- Converting to a permuted pack and back is the identity. -/
theorem C02_roundtrip (x : Tup τ α) (qs : List τ) (hnd : (tags x).Nodup) (hp : qs.Perm (tags x)) :
    ∃ y, select qs x = .ok y ∧ select (tags x) y = .ok x := by
  obtain ⟨y, h1, h2, h3⟩ := select_ok (qs := qs) (x := x) (fun q hq => hp.mem_iff.1 hq)
  refine ⟨y, h1, ?_⟩
  obtain ⟨z, g1, g2, g3⟩ := select_ok (qs := tags x) (x := y)
    (fun q hq => by rw [h2]; exact hp.mem_iff.2 hq)
  rw [g1]
  congr 1
  refine ext_get g2 (by rw [g2]; exact hnd) ?_
  intro q hq
  rw [g2] at hq
  rw [g3 q hq, h3 q (hp.mem_iff.2 hq)]

/-- `get_or` / `select_or` return the stored value when the tag is present and the
default otherwise. -/
theorem C02_get_or (q : τ) (x d : Tup τ α) (v : α) :
    (q ∈ tags x → getOr q x v = get q x ∧
        ∃ r, selectOr q x d = .ok r ∧ tags r = [q] ∧ get q r = get q x) ∧
    (q ∉ tags x → getOr q x v = .ok v ∧ selectOr q x d = .ok d) := by
  constructor
  · intro h
    refine ⟨by simp [getOr, h], ?_⟩
    obtain ⟨r, h1, h2, h3⟩ := select_ok (qs := [q]) (x := x) (by simpa using h)
    exact ⟨r, by simp [selectOr, h, h1], h2, h3 q (by simp)⟩
  · intro h
    simp [getOr, selectOr, h]

/-- `operator==` between tuples over the same set of tags compares the values tag
by tag, whatever the two tag orders. -/
theorem C02_eq [DecidableEq α] (x y : Tup τ α) (hx : (tags x).Nodup)
    (hs : ∀ q, q ∈ tags x ↔ q ∈ tags y) :
    (eqFold x y = .ok true ∨ eqFold x y = .ok false) ∧
    (eqFold x y = .ok true ↔ ∀ q ∈ tags x, get q x = get q y) := by
  obtain ⟨b, h1, h2⟩ := eqFold_ok hx (fun q hq => (hs q).1 hq)
  rw [h1]
  refine ⟨by cases b <;> simp, ?_⟩
  rw [← h2]; simp

/-- Equality is an equivalence relation on tuples over a given set of tags. -/
theorem C02_eq_equiv [DecidableEq α] (x y z : Tup τ α)
    (hx : (tags x).Nodup) (hy : (tags y).Nodup)
    (hxy : ∀ q, q ∈ tags x ↔ q ∈ tags y) (hyz : ∀ q, q ∈ tags y ↔ q ∈ tags z) :
    eqFold x x = .ok true ∧ eqFold x y = eqFold y x ∧
    (eqFold x y = .ok true → eqFold y z = .ok true → eqFold x z = .ok true) := by
  refine ⟨((C02_eq x x hx (fun q => Iff.rfl)).2).2 (fun _ _ => rfl), ?_, ?_⟩
  · obtain ⟨b, h1, h2⟩ := eqFold_ok hx (fun q hq => (hxy q).1 hq)
    obtain ⟨c, g1, g2⟩ := eqFold_ok hy (fun q hq => (hxy q).2 hq)
    rw [h1, g1]
    congr 1
    rw [Bool.eq_iff_iff, h2, g2]
    exact ⟨fun h q hq => (h q ((hxy q).2 hq)).symm, fun h q hq => (h q ((hxy q).1 hq)).symm⟩
  · intro h1 h2
    have e1 := (C02_eq x y hx hxy).2.1 h1
    have e2 := (C02_eq y z hy hyz).2.1 h2
    refine (C02_eq x z hx (fun q => (hxy q).trans (hyz q))).2.2 ?_
    intro q hq
    rw [e1 q hq, e2 q ((hxy q).1 hq)]

/-- Permuting the pack of either operand does not change the result of `==`. -/
theorem C02_eq_perm [DecidableEq α] (x x' y y' : Tup τ α) (hx : (tags x).Nodup) (hy : (tags y).Nodup)
    (px : x.Perm x') (py : y.Perm y') (hxy : ∀ q, q ∈ tags x ↔ q ∈ tags y) :
    eqFold x y = eqFold x' y' := by
  have hx' : (tags x').Nodup := (px.map Prod.fst).nodup hx
  have hy' : (tags y').Nodup := (py.map Prod.fst).nodup hy
  have mx : ∀ q, q ∈ tags x ↔ q ∈ tags x' := fun q => (px.map Prod.fst).mem_iff
  have my : ∀ q, q ∈ tags y ↔ q ∈ tags y' := fun q => (py.map Prod.fst).mem_iff
  obtain ⟨b, h1, h2⟩ := eqFold_ok hx (fun q hq => (hxy q).1 hq)
  obtain ⟨c, g1, g2⟩ := eqFold_ok (y := y') hx' (fun q hq => (my q).1 ((hxy q).1 ((mx q).2 hq)))
  have ex : ∀ q, get q x = get q x' := by
    intro q
    rcases get_cases q x with ⟨hq, e⟩ | ⟨hq, v, e⟩
    · rw [e, get_ill (fun h => hq ((mx q).2 h))]
    · rw [e]; exact (get_of_mem hx' (px.mem_iff.1 (get_mem e))).symm
  have ey : ∀ q, get q y = get q y' := by
    intro q
    rcases get_cases q y with ⟨hq, e⟩ | ⟨hq, v, e⟩
    · rw [e, get_ill (fun h => hq ((my q).2 h))]
    · rw [e]; exact (get_of_mem hy' (py.mem_iff.1 (get_mem e))).symm
  rw [h1, g1]
  congr 1
  rw [Bool.eq_iff_iff, h2, g2]
  constructor
  · intro h q hq; rw [← ex, ← ey]; exact h q ((mx q).2 hq)
  · intro h q hq; rw [ex, ey]; exact h q ((mx q).1 hq)

/-- Observation on the code: `==` accepts a right operand with *more* tags, ignores the
additional ones, and the mirrored expression does not compile. -/
theorem C02_eq_subpack_asymmetric [DecidableEq α] (x y : Tup τ α) (hx : (tags x).Nodup)
    (hsub : ∀ q ∈ tags x, q ∈ tags y) (q : τ) (hq : q ∈ tags y) (hq' : q ∉ tags x) :
    (eqFold x y = .ok true ↔ ∀ q ∈ tags x, get q x = get q y) ∧ eqFold y x = .ill := by
  obtain ⟨b, h1, h2⟩ := eqFold_ok hx hsub
  refine ⟨by rw [h1, ← h2]; simp, eqFold_ill hq hq'⟩

/-! Non-vacuity: a two-dimensional element, its transposition, a merge. -/
example : select ['y', 'x'] ([('x', 3), ('y', 4)] : Tup Char U64) = .ok [('y', 4), ('x', 3)] := by
  decide
example : (['y', 'x'] : List Char).Perm (tags ([('x', 3), ('y', 4)] : Tup Char U64)) := by decide
example : eqFold ([('x', 3), ('y', 4)] : Tup Char U64) [('y', 4), ('x', 3)] = .ok true := by decide
example : ofTuples ['x', 'z', 'y'] [([('x', 3), ('y', 4)] : Tup Char U64), [('z', 5)]]
    = .ok [('x', 3), ('z', 5), ('y', 4)] := by decide

end DDC.Props
