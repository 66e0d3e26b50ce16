import Verif.Lemmas.Tuple

namespace DDC

variable {τ : Type} [DecidableEq τ]

theorem toInt_ofInt_of_range {z : Int} (h : -2 ^ 63 ≤ z ∧ z < 2 ^ 63) :
    (BitVec.ofInt 64 z).toInt = z := by
  rw [BitVec.toInt_ofInt]
  unfold Int.bmod
  have e : ((2 ^ 64 : Nat) : Int) = 18446744073709551616 := by decide
  rw [e]
  have e2 : (2 : Int) ^ 63 = 9223372036854775808 := by decide
  rw [e2] at h
  dsimp only
  split <;> omega

theorem toInt_range (x : I64) : -2 ^ 63 ≤ x.toInt ∧ x.toInt < 2 ^ 63 := by
  have h1 := BitVec.le_toInt x
  have h2 := BitVec.toInt_lt (x := x)
  exact ⟨h1, h2⟩

namespace Elem
open Tup

theorem addVec_spec {e : Elem τ} {v : Vect τ} (he : (tags e).Nodup) (hv : (tags v).Nodup)
    (hs : ∀ q ∈ tags v, q ∈ tags e) :
    ∃ r, addVec e v = .ok r ∧ tags r = tags e ∧ (∀ q, q ∉ tags v → get q r = get q e) ∧
      ∀ q a x, get q e = .ok a → get q v = .ok x → get q r = .ok (a + x) := by
  obtain ⟨r, h1, h2, h3, h4⟩ := opAssign_ok (op := fun (a : U64) (x : I64) => Res.ok (a + x)) he hv
    (by
      intro q w hq
      obtain ⟨a, ha⟩ := get_ok_iff_mem_tags.2 (hs q (List.mem_map_of_mem (f := Prod.fst) hq))
      exact ⟨a, a + w, ha, rfl⟩)
  exact ⟨r, h1, h2, h3, fun q a x ha hx => h4 q x (get_mem hx) a ha⟩

theorem subVec_spec {e : Elem τ} {v : Vect τ} (he : (tags e).Nodup) (hv : (tags v).Nodup)
    (hs : ∀ q ∈ tags v, q ∈ tags e) :
    ∃ r, subVec e v = .ok r ∧ tags r = tags e ∧ (∀ q, q ∉ tags v → get q r = get q e) ∧
      ∀ q a x, get q e = .ok a → get q v = .ok x → get q r = .ok (a - x) := by
  obtain ⟨r, h1, h2, h3, h4⟩ := opAssign_ok (op := fun (a : U64) (x : I64) => Res.ok (a - x)) he hv
    (by
      intro q w hq
      obtain ⟨a, ha⟩ := get_ok_iff_mem_tags.2 (hs q (List.mem_map_of_mem (f := Prod.fst) hq))
      exact ⟨a, a - w, ha, rfl⟩)
  exact ⟨r, h1, h2, h3, fun q a x ha hx => h4 q x (get_mem hx) a ha⟩

theorem sub_spec {a b : Elem τ}
    (hs : ∀ q, q ∈ tags a ↔ q ∈ tags b) :
    ∃ r, sub a b = .ok r ∧ tags r = tags a ∧
      ∀ q x y, get q a = .ok x → get q b = .ok y → get q r = .ok (x - y) := by
  obtain ⟨r, h1, h2, h3⟩ := zipVals_ok (f := fun (x y : U64) => Res.ok (x - y)) (x := a) (y := b)
    (by
      intro q v hq
      obtain ⟨w, hw⟩ := get_ok_iff_mem_tags.2 ((hs q).1 (List.mem_map_of_mem (f := Prod.fst) hq))
      exact ⟨w, v - w, hw, rfl⟩)
  refine ⟨r, ?_, h2, h3⟩
  have : TypeSeq.same (tags a) (tags b) = true := (TypeSeq.same_iff _ _).2 hs
  unfold sub
  rw [this]
  exact h1

end Elem

namespace Vect
open Tup

/-- Specification vocabulary: the mathematical value of a vector at a tag, `0`
for an absent tag. -/
def intVal (q : τ) (v : Vect τ) : Int :=
  match get q v with
  | .ok x => x.toInt
  | _ => 0

/-- Specification vocabulary: representable as `ptrdiff_t`. -/
def InRange (z : Int) : Prop := -2 ^ 63 ≤ z ∧ z < 2 ^ 63

theorem intVal_ok {q : τ} {v : Vect τ} {x : I64} (h : get q v = .ok x) : intVal q v = x.toInt := by
  simp [intVal, h]

theorem intVal_absent {q : τ} {v : Vect τ} (h : q ∉ tags v) : intVal q v = 0 := by
  simp [intVal, get_ill h]

theorem inRange_intVal (q : τ) (v : Vect τ) : InRange (intVal q v) := by
  rcases get_cases q v with ⟨h, _⟩ | ⟨_, x, h⟩
  · rw [intVal_absent h]; exact ⟨by decide, by decide⟩
  · rw [intVal_ok h]; exact toInt_range x

theorem signedRes_ok {z : Int} (h : InRange z) : signedRes z = .ok (BitVec.ofInt 64 z) := by
  unfold InRange at h; simp only [signedRes, if_pos h]

theorem signedRes_ub {z : Int} (h : ¬ InRange z) : signedRes z = .ub := by
  unfold InRange at h; simp only [signedRes, if_neg h]

theorem signedRes_cases (z : Int) : (∃ u, signedRes z = .ok u) ∨ signedRes z = .ub := by
  by_cases h : InRange z
  · exact .inl ⟨_, signedRes_ok h⟩
  · exact .inr (signedRes_ub h)

/-- Generic specification of `v op= w` for a signed operation `f`. -/
theorem opAssign_signed (f : Int → Int → Int) {v w : Vect τ} (hv : (tags v).Nodup)
    (hw : (tags w).Nodup) (hs : ∀ q ∈ tags w, q ∈ tags v) :
    ((∀ q ∈ tags w, InRange (f (intVal q v) (intVal q w))) →
      ∃ r, opAssign (fun (a b : I64) => signedRes (f a.toInt b.toInt)) v w = .ok r ∧
        tags r = tags v ∧ (∀ q, q ∉ tags w → get q r = get q v) ∧
        ∀ q ∈ tags w, intVal q r = f (intVal q v) (intVal q w)) ∧
    ((∃ q ∈ tags w, ¬ InRange (f (intVal q v) (intVal q w))) →
      opAssign (fun (a b : I64) => signedRes (f a.toInt b.toInt)) v w = .ub) := by
  constructor
  · intro h
    obtain ⟨r, h1, h2, h3, h4⟩ := opAssign_ok
      (op := fun (a b : I64) => signedRes (f a.toInt b.toInt)) hv hw
      (by
        intro q x hq
        have hqt := List.mem_map_of_mem (f := Prod.fst) hq
        obtain ⟨a, ha⟩ := get_ok_iff_mem_tags.2 (hs q hqt)
        have hr := h q hqt
        rw [intVal_ok ha, intVal_ok (get_of_mem hw hq)] at hr
        exact ⟨a, _, ha, signedRes_ok hr⟩)
    refine ⟨r, h1, h2, h3, ?_⟩
    intro q hq
    obtain ⟨x, hx⟩ := get_ok_iff_mem_tags.2 hq
    obtain ⟨a, ha⟩ := get_ok_iff_mem_tags.2 (hs q hq)
    have hr := h q hq
    rw [intVal_ok ha, intVal_ok hx] at hr ⊢
    have := h4 q x (get_mem hx) a ha
    rw [signedRes_ok hr] at this
    rw [intVal_ok this]
    exact toInt_ofInt_of_range hr
  · rintro ⟨q, hq, hr⟩
    refine opAssign_ub hv hw ?_ ?_
    · intro p x hp
      obtain ⟨a, ha⟩ := get_ok_iff_mem_tags.2 (hs p (List.mem_map_of_mem (f := Prod.fst) hp))
      exact ⟨a, ha, signedRes_cases _⟩
    · obtain ⟨x, hx⟩ := get_ok_iff_mem_tags.2 hq
      obtain ⟨a, ha⟩ := get_ok_iff_mem_tags.2 (hs q hq)
      rw [intVal_ok ha, intVal_ok hx] at hr
      exact ⟨q, x, a, get_mem hx, ha, signedRes_ub hr⟩

/-- Generic specification of a unary signed operation applied to all components. -/
theorem mapVals_signed (f : Int → Int) {v : Vect τ} (hv : (tags v).Nodup) :
    ((∀ q ∈ tags v, InRange (f (intVal q v))) →
      ∃ r, mapVals (fun (a : I64) => signedRes (f a.toInt)) v = .ok r ∧ tags r = tags v ∧
        ∀ q ∈ tags v, intVal q r = f (intVal q v)) ∧
    ((∃ q ∈ tags v, ¬ InRange (f (intVal q v))) →
      mapVals (fun (a : I64) => signedRes (f a.toInt)) v = .ub) := by
  constructor
  · intro h
    obtain ⟨r, h1, h2, h3⟩ := mapVals_ok (f := fun (a : I64) => signedRes (f a.toInt)) (x := v)
      (by
        intro x hx
        obtain ⟨⟨t, y⟩, hm, rfl⟩ := List.mem_map.1 hx
        have := h t (List.mem_map_of_mem (f := Prod.fst) hm)
        rw [intVal_ok (get_of_mem hv hm)] at this
        exact ⟨_, signedRes_ok this⟩)
    refine ⟨r, h1, h2, ?_⟩
    intro q hq
    obtain ⟨x, hx⟩ := get_ok_iff_mem_tags.2 hq
    have hr := h q hq
    rw [intVal_ok hx] at hr ⊢
    have := h3 q x hx
    rw [signedRes_ok hr] at this
    rw [intVal_ok this]
    exact toInt_ofInt_of_range hr
  · rintro ⟨q, hq, hr⟩
    refine mapVals_ub (fun _ _ => signedRes_cases _) ?_
    obtain ⟨x, hx⟩ := get_ok_iff_mem_tags.2 hq
    rw [intVal_ok hx] at hr
    exact ⟨x, List.mem_map.2 ⟨_, get_mem hx, rfl⟩, signedRes_ub hr⟩

end Vect
end DDC
