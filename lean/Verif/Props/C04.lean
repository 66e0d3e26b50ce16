import Mathlib.Data.List.Perm.Subperm
import Verif.Lemmas.Element

/-!
# C04  DiscreteVector arithmetic
-/

namespace DDC.Props

open Tup Vect

variable {τ : Type} [DecidableEq τ]

omit [DecidableEq τ] in
private theorem subset_of_length {l m : List τ} (hl : l.Nodup) (h : ∀ q ∈ l, q ∈ m)
    (hlen : m.length ≤ l.length) : ∀ q ∈ m, q ∈ l := by
  have := (List.subperm_of_subset hl h).perm_of_length_le hlen
  exact fun q hq => this.mem_iff.2 hq

omit [DecidableEq τ] in
private theorem length_le_of_sub {l m : List τ} (hl : l.Nodup) (h : ∀ q ∈ l, q ∈ m) :
    l.length ≤ m.length := (List.subperm_of_subset hl h).length_le

/-- `v + w` (one pack included in the other): the mathematical componentwise sum,
with absent tags counting as zero, over the tags of the longer operand; undefined
exactly when a component of the mathematical sum is not representable. -/
theorem C04_add (v w : Vect τ) (hv : (tags v).Nodup) (hw : (tags w).Nodup)
    (hs : (∀ q ∈ tags w, q ∈ tags v) ∨ (∀ q ∈ tags v, q ∈ tags w)) :
    ((∀ q, InRange (intVal q v + intVal q w)) →
      ∃ r, Vect.add v w = .ok r ∧ (tags r = tags v ∨ tags r = tags w) ∧
        (∀ q, q ∈ tags r ↔ q ∈ tags v ∨ q ∈ tags w) ∧
        ∀ q, intVal q r = intVal q v + intVal q w) ∧
    ((∃ q, ¬ InRange (intVal q v + intVal q w)) → Vect.add v w = .ub) := by
  -- the assignment form, for the included operand on the right
  have key : ∀ (v w : Vect τ), (tags v).Nodup → (tags w).Nodup → (∀ q ∈ tags w, q ∈ tags v) →
      ((∀ q, InRange (intVal q v + intVal q w)) →
        ∃ r, addAssign v w = .ok r ∧ tags r = tags v ∧
          ∀ q, intVal q r = intVal q v + intVal q w) ∧
      ((∃ q, ¬ InRange (intVal q v + intVal q w)) → addAssign v w = .ub) := by
    intro v w hv hw hs
    obtain ⟨k1, k2⟩ := opAssign_signed (fun a b => a + b) hv hw hs
    constructor
    · intro h
      obtain ⟨r, h1, h2, h3, h4⟩ := k1 (fun q _ => h q)
      refine ⟨r, h1, h2, ?_⟩
      intro q
      by_cases hq : q ∈ tags w
      · exact h4 q hq
      · rw [intVal_absent hq]; simp [intVal, h3 q hq]
    · rintro ⟨q, hq⟩
      refine k2 ⟨q, ?_, hq⟩
      by_cases hqw : q ∈ tags w
      · exact hqw
      · rw [intVal_absent hqw, Int.add_zero] at hq
        exact absurd (inRange_intVal q v) hq
  unfold Vect.add
  split
  · rename_i hlen
    have hs' : ∀ q ∈ tags w, q ∈ tags v := by
      rcases hs with hs | hs
      · exact hs
      · exact subset_of_length hv hs (by simpa using hlen)
    obtain ⟨k1, k2⟩ := key v w hv hw hs'
    refine ⟨fun h => ?_, k2⟩
    obtain ⟨r, h1, h2, h3⟩ := k1 h
    refine ⟨r, h1, .inl h2, ?_, h3⟩
    intro q; rw [h2]
    exact ⟨.inl, fun h => h.elim id (hs' q)⟩
  · rename_i hlen
    have hs' : ∀ q ∈ tags v, q ∈ tags w := by
      rcases hs with hs | hs
      · have := length_le_of_sub hw hs
        simp at this; omega
      · exact hs
    obtain ⟨k1, k2⟩ := key w v hw hv hs'
    have e : ∀ q, intVal q v + intVal q w = intVal q w + intVal q v := fun q => Int.add_comm _ _
    constructor
    · intro h
      obtain ⟨r, h1, h2, h3⟩ := k1 (fun q => by rw [← e]; exact h q)
      refine ⟨r, h1, .inr h2, ?_, fun q => by rw [h3, e]⟩
      intro q; rw [h2]
      exact ⟨.inr, fun h => h.elim (hs' q) id⟩
    · rintro ⟨q, hq⟩
      exact k2 ⟨q, by rw [← e]; exact hq⟩

/-- `-v`. -/
theorem C04_neg (v : Vect τ) (hv : (tags v).Nodup) :
    ((∀ q, InRange (- intVal q v)) → ∃ r, Vect.neg v = .ok r ∧ tags r = tags v ∧
        ∀ q, intVal q r = - intVal q v) ∧
    ((∃ q, ¬ InRange (- intVal q v)) → Vect.neg v = .ub) := by
  obtain ⟨k1, k2⟩ := mapVals_signed (fun a => -a) hv
  constructor
  · intro h
    obtain ⟨r, h1, h2, h3⟩ := k1 (fun q _ => h q)
    refine ⟨r, h1, h2, ?_⟩
    intro q
    by_cases hq : q ∈ tags v
    · exact h3 q hq
    · rw [intVal_absent hq, intVal_absent (by rw [h2]; exact hq)]; rfl
  · rintro ⟨q, hq⟩
    refine k2 ⟨q, ?_, hq⟩
    by_cases hqv : q ∈ tags v
    · exact hqv
    · rw [intVal_absent hqv] at hq; exact absurd ⟨by decide, by decide⟩ hq

/-- `k * v`. -/
theorem C04_smul (k : I64) (v : Vect τ) (hv : (tags v).Nodup) :
    ((∀ q, InRange (k.toInt * intVal q v)) → ∃ r, Vect.smul k v = .ok r ∧ tags r = tags v ∧
        ∀ q, intVal q r = k.toInt * intVal q v) ∧
    ((∃ q, ¬ InRange (k.toInt * intVal q v)) → Vect.smul k v = .ub) := by
  obtain ⟨k1, k2⟩ := mapVals_signed (fun a => k.toInt * a) hv
  constructor
  · intro h
    obtain ⟨r, h1, h2, h3⟩ := k1 (fun q _ => h q)
    refine ⟨r, h1, h2, ?_⟩
    intro q
    by_cases hq : q ∈ tags v
    · exact h3 q hq
    · rw [intVal_absent hq, intVal_absent (by rw [h2]; exact hq)]; simp
  · rintro ⟨q, hq⟩
    refine k2 ⟨q, ?_, hq⟩
    by_cases hqv : q ∈ tags v
    · exact hqv
    · rw [intVal_absent hqv, Int.mul_zero] at hq; exact absurd ⟨by decide, by decide⟩ hq

/-- `v -= w` and `v *= w` for `w` over a sub-pack of `v`: the components of `w`
act, the other components are unchanged; undefined exactly on overflow. -/
theorem C04_assign (v w : Vect τ) (hv : (tags v).Nodup) (hw : (tags w).Nodup)
    (hs : ∀ q ∈ tags w, q ∈ tags v) :
    (((∀ q ∈ tags w, InRange (intVal q v - intVal q w)) →
      ∃ r, subAssign v w = .ok r ∧ tags r = tags v ∧ (∀ q, q ∉ tags w → get q r = get q v) ∧
        ∀ q ∈ tags w, intVal q r = intVal q v - intVal q w) ∧
     ((∃ q ∈ tags w, ¬ InRange (intVal q v - intVal q w)) → subAssign v w = .ub)) ∧
    (((∀ q ∈ tags w, InRange (intVal q v * intVal q w)) →
      ∃ r, mulAssign v w = .ok r ∧ tags r = tags v ∧ (∀ q, q ∉ tags w → get q r = get q v) ∧
        ∀ q ∈ tags w, intVal q r = intVal q v * intVal q w) ∧
     ((∃ q ∈ tags w, ¬ InRange (intVal q v * intVal q w)) → mulAssign v w = .ub)) :=
  ⟨opAssign_signed (fun a b => a - b) hv hw hs, opAssign_signed (fun a b => a * b) hv hw hs⟩

/-- `v - w`.  Full statement: undefined exactly when a component of the
mathematical difference is not representable.  Proved for `w` over a sub-pack of
`v`, and for a strictly shorter `v` when in addition no component of `w` is
`-2^63`; `C04_sub_not_exact` shows that the code is undefined in the excluded
case although the difference is representable. -/
theorem C04_sub_partial (v w : Vect τ) (hv : (tags v).Nodup) (hw : (tags w).Nodup)
    (hs : (∀ q ∈ tags w, q ∈ tags v) ∨
      ((∀ q ∈ tags v, q ∈ tags w) ∧ ∀ q, intVal q w ≠ -2 ^ 63)) :
    ((∀ q, InRange (intVal q v - intVal q w)) →
      ∃ r, Vect.sub v w = .ok r ∧
        (∀ q, q ∈ tags r ↔ q ∈ tags v ∨ q ∈ tags w) ∧
        ∀ q, intVal q r = intVal q v - intVal q w) ∧
    ((∃ q, ¬ InRange (intVal q v - intVal q w)) → Vect.sub v w = .ub) := by
  unfold Vect.sub
  split
  · rename_i hlen
    have hs' : ∀ q ∈ tags w, q ∈ tags v := by
      rcases hs with hs | hs
      · exact hs
      · exact subset_of_length hv hs.1 (by simpa using hlen)
    obtain ⟨k1, k2⟩ := (C04_assign v w hv hw hs').1
    constructor
    · intro h
      obtain ⟨r, h1, h2, h3, h4⟩ := k1 (fun q _ => h q)
      refine ⟨r, h1, ?_, ?_⟩
      · intro q; rw [h2]; exact ⟨.inl, fun h => h.elim id (hs' q)⟩
      · intro q
        by_cases hq : q ∈ tags w
        · exact h4 q hq
        · rw [intVal_absent hq]; simp [intVal, h3 q hq]
    · rintro ⟨q, hq⟩
      refine k2 ⟨q, ?_, hq⟩
      by_cases hqw : q ∈ tags w
      · exact hqw
      · rw [intVal_absent hqw, Int.sub_zero] at hq
        exact absurd (inRange_intVal q v) hq
  · rename_i hlen
    have hs' : (∀ q ∈ tags v, q ∈ tags w) ∧ ∀ q, intVal q w ≠ -2 ^ 63 := by
      rcases hs with hs | hs
      · have := length_le_of_sub hw hs
        simp at this; omega
      · exact hs
    obtain ⟨n, n1, n2, n3⟩ := (C04_neg w hw).1 (by
      intro q
      have := inRange_intVal q w
      have h2 := hs'.2 q
      unfold InRange at *
      omega)
    simp only [n1, Res.ok_bind]
    have hlen' : v.length ≤ n.length := by
      have : (tags n).length = (tags w).length := by rw [n2]
      simp at this; omega
    have := C04_add n v (by rw [n2]; exact hw) hv (.inl (by rw [n2]; exact hs'.1))
    simp only [Vect.add, if_pos hlen', n3, n2] at this
    obtain ⟨k1, k2⟩ := this
    have e : ∀ q, - intVal q w + intVal q v = intVal q v - intVal q w := by intro q; omega
    simp only [e] at k1 k2
    refine ⟨fun h => ?_, k2⟩
    obtain ⟨r, h1, h2, h3, h4⟩ := k1 h
    exact ⟨r, h1, fun q => by rw [h3 q]; exact Or.comm, h4⟩

/-- Code observation: subtracting a longer vector negates it first, which is
undefined for `-2^63` although `(-1) - (-2^63)` is representable. -/
theorem C04_sub_not_exact :
    ∃ v w : Vect Char, (tags v).Nodup ∧ (tags w).Nodup ∧ (∀ q ∈ tags v, q ∈ tags w) ∧
      (∀ q ∈ tags w, InRange (intVal q v - intVal q w)) ∧ Vect.sub v w = .ub := by
  refine ⟨[('x', -1)], [('x', BitVec.ofInt 64 (-2 ^ 63)), ('y', 0)], ?_⟩
  unfold InRange
  decide

/-- Group laws: whenever the expressions involved are defined, addition is
commutative and associative, `v - v` is zero and `(v + w) - w = v`. -/
theorem C04_group (v w u : Vect τ) (hv : (tags v).Nodup) (hw : (tags w).Nodup) (hu : (tags u).Nodup)
    (h1 : ∀ q, q ∈ tags v ↔ q ∈ tags w) (h2 : ∀ q, q ∈ tags w ↔ q ∈ tags u)
    (a b c d : Vect τ)
    (ha : Vect.add v w = .ok a) (hb : Vect.add a u = .ok b)
    (hc : Vect.add w u = .ok c) (hd : Vect.add v c = .ok d) :
    (∀ q, intVal q b = intVal q d) ∧
    (∃ a', Vect.add w v = .ok a' ∧ ∀ q, intVal q a' = intVal q a) ∧
    (∃ z, Vect.sub v v = .ok z ∧ ∀ q, intVal q z = 0) ∧
    (∃ r, Vect.sub a w = .ok r ∧ ∀ q, intVal q r = intVal q v) := by
  have val : ∀ (x y r : Vect τ), (tags x).Nodup → (tags y).Nodup → (∀ q, q ∈ tags x ↔ q ∈ tags y) →
      Vect.add x y = .ok r → (tags r).Nodup ∧ (∀ q, q ∈ tags r ↔ q ∈ tags x) ∧
        ∀ q, intVal q r = intVal q x + intVal q y := by
    intro x y r hx hy hxy hr
    obtain ⟨k1, k2⟩ := C04_add x y hx hy (.inr (fun q hq => (hxy q).1 hq))
    by_cases h : ∀ q, InRange (intVal q x + intVal q y)
    · obtain ⟨r', e1, e2, e3, e4⟩ := k1 h
      rw [hr] at e1; injection e1 with e1; subst e1
      refine ⟨?_, ?_, e4⟩
      · rcases e2 with e2 | e2 <;> rw [e2] <;> assumption
      · intro q; rw [e3 q, ← hxy q]; simp
    · simp only [not_forall] at h
      rw [hr] at k2
      exact absurd (k2 h) (by simp)
  obtain ⟨na, ta, va⟩ := val v w a hv hw h1 ha
  obtain ⟨_, _, vb⟩ := val a u b na hu (fun q => (ta q).trans ((h1 q).trans (h2 q))) hb
  obtain ⟨nc, tc, vc⟩ := val w u c hw hu h2 hc
  obtain ⟨_, _, vd⟩ := val v c d hv nc (fun q => (h1 q).trans (tc q).symm) hd
  refine ⟨?_, ?_, ?_, ?_⟩
  · intro q; rw [vb, va, vd, vc]; omega
  · obtain ⟨r, e1, _, _, e4⟩ := (C04_add w v hw hv (.inr (fun q hq => (h1 q).2 hq))).1 (by
      intro q
      have := inRange_intVal q a
      rw [va] at this
      rw [Int.add_comm]; exact this)
    exact ⟨r, e1, fun q => by rw [e4, va]; omega⟩
  · obtain ⟨r, e1, _, e4⟩ := (C04_sub_partial v v hv hv (.inl (fun _ h => h))).1 (by
      intro q; rw [Int.sub_self]; exact ⟨by decide, by decide⟩)
    exact ⟨r, e1, fun q => by rw [e4]; omega⟩
  · obtain ⟨r, e1, _, e4⟩ := (C04_sub_partial a w na hw (.inl (fun q hq => (ta q).2 ((h1 q).2 hq)))).1 (by
      intro q; rw [va]
      have := inRange_intVal q v
      rwa [Int.add_sub_cancel])
    exact ⟨r, e1, fun q => by rw [e4, va]; omega⟩

/-- One-dimensional forms with integers and the ordering. -/
theorem C04_scalar (t : τ) (a b : I64) :
    Vect.addInt [(t, a)] b = Vect.add [(t, a)] [(t, b)] ∧
    Vect.intAdd b [(t, a)] = Vect.add [(t, b)] [(t, a)] ∧
    Vect.subInt [(t, a)] b = Vect.sub [(t, a)] [(t, b)] ∧
    Vect.intSub b [(t, a)] = Vect.sub [(t, b)] [(t, a)] ∧
    Vect.inc [(t, a)] = Vect.add [(t, a)] [(t, 1)] ∧
    Vect.dec [(t, a)] = Vect.sub [(t, a)] [(t, 1)] ∧
    Vect.lt [(t, a)] [(t, b)] = .ok (decide (a.toInt < b.toInt)) := by
  simp [Vect.addInt, Vect.intAdd, Vect.subInt, Vect.intSub, Vect.inc, Vect.dec, Vect.add, Vect.sub,
    addAssign, subAssign, opAssign, Tup.modify, Vect.lt, sLt]

/-! Non-vacuity -/
example : Vect.add ([('y', 4)] : Vect Char) [('x', 1), ('y', -6)] = .ok [('x', 1), ('y', -2)] := by decide
example : Vect.add ([('y', BitVec.ofInt 64 (2 ^ 63 - 1))] : Vect Char) [('y', 1)] = .ub := by decide

end DDC.Props
