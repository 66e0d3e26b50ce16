import Verif.Spec.Strided
import Verif.Lemmas.DomainOps
import Mathlib.Tactic.Ring
import Mathlib.Tactic.Linarith

set_option linter.unusedSectionVars false

namespace DDC

variable {τ : Type} [DecidableEq τ]

namespace SDom
open Tup Spec

theorem tags_front (d : SDom τ) : tags (front d) = tags d :=
  tags_map_snd (fun p : U64 × I64 × I64 => p.1) d
theorem tags_extents (d : SDom τ) : tags (extents d) = tags d :=
  tags_map_snd (fun p : U64 × I64 × I64 => p.2.1) d
theorem tags_strides (d : SDom τ) : tags (strides d) = tags d :=
  tags_map_snd (fun p : U64 × I64 × I64 => p.2.2) d

section
variable {q : τ} {d : SDom τ} {b : U64} {n s : I64}

theorem get_front_ok (h : get q d = .ok (b, n, s)) : get q (front d) = .ok b := by
  rw [front, get_map_snd q (fun p : U64 × I64 × I64 => p.1) d, h]; rfl
theorem get_extents_ok (h : get q d = .ok (b, n, s)) : get q (extents d) = .ok n := by
  rw [extents, get_map_snd q (fun p : U64 × I64 × I64 => p.2.1) d, h]; rfl
theorem get_strides_ok (h : get q d = .ok (b, n, s)) : get q (strides d) = .ok s := by
  rw [strides, get_map_snd q (fun p : U64 × I64 × I64 => p.2.2) d, h]; rfl

theorem first_ok (h : get q d = .ok (b, n, s)) : first q d = b.toNat := by simp [first, h]
theorem count_ok (h : get q d = .ok (b, n, s)) : count q d = n.toInt := by simp [count, h]
theorem step_ok (h : get q d = .ok (b, n, s)) : step q d = s.toInt := by simp [step, h]

theorem svalid_get (hv : SValid d) (h : get q d = .ok (b, n, s)) :
    0 ≤ n.toInt ∧ 1 ≤ s.toInt ∧ n.toInt * s.toInt < 2 ^ 63 ∧
      (b.toNat : Int) + n.toInt * s.toInt < 2 ^ 64 := by
  have := hv.2 q (mem_tags_of_get h)
  rwa [first_ok h, count_ok h, step_ok h] at this
end

theorem mk_ok {b : Elem τ} {n s : Vect τ} (hb : (tags b).Nodup) (hn : tags n = tags b)
    (hs : tags s = tags b) :
    ∃ d, mk b n s = .ok d ∧ tags d = tags b ∧
      ∀ q x y z, get q b = .ok x → get q n = .ok y → get q s = .ok z → get q d = .ok (x, y, z) := by
  obtain ⟨r, h1, h2, h3⟩ := zipVals_ok (f := fun (x y : I64) => Res.ok (x, y)) (x := n) (y := s)
    (by
      intro q v hq
      obtain ⟨w, hw⟩ := get_ok_iff_mem_tags.2
        (show q ∈ tags s by rw [hs, ← hn]; exact List.mem_map_of_mem (f := Prod.fst) hq)
      exact ⟨w, (v, w), hw, rfl⟩)
  obtain ⟨r', g1, g2, g3⟩ := zipVals_ok (f := fun (x : U64) (y : I64 × I64) => Res.ok (x, y)) (x := b) (y := r)
    (by
      intro q v hq
      obtain ⟨w, hw⟩ := get_ok_iff_mem_tags.2
        (show q ∈ tags r by rw [h2, hn]; exact List.mem_map_of_mem (f := Prod.fst) hq)
      exact ⟨w, (v, w), hw, rfl⟩)
  have : TypeSeq.isUnique (tags b) = true := (TypeSeq.isUnique_iff _).2 hb
  refine ⟨r', by simp [mk, this, h1, g1], g2, ?_⟩
  intro q x y z hx hy hz
  exact g3 q x (y, z) hx (h3 q y z hy hz)

theorem ofSize_ok {b : Elem τ} {n s : Vect τ} (hb : (tags b).Nodup) (hn : tags n = tags b)
    (hs : tags s = tags b) :
    ∃ d, ofSize b n s = .ok d ∧ tags d = tags b ∧
      ∀ q x y z, get q b = .ok x → get q n = .ok y → get q s = .ok z → get q d = .ok (x, y, z) := by
  obtain ⟨d, h1, h2, h3⟩ := mk_ok hb hn hs
  exact ⟨d, by simp [ofSize, hn, hs, h1], h2, h3⟩

/-- Rebuilding a domain from its three members. -/
theorem ofSize_members {d : SDom τ} (hd : (tags d).Nodup) :
    ofSize (front d) (extents d) (strides d) = .ok d := by
  obtain ⟨r, h1, h2, h3⟩ := ofSize_ok (b := front d) (n := extents d) (s := strides d)
    (by rw [tags_front]; exact hd) (by rw [tags_extents, tags_front]) (by rw [tags_strides, tags_front])
  rw [h1]; congr 1
  refine (ext_get' (by rw [h2, tags_front]) hd ?_).symm
  rintro q ⟨b, n, s⟩ h
  exact h3 q b n s (get_front_ok h) (get_extents_ok h) (get_strides_ok h)

theorem ofInt_mul_toInt (a b : I64) : BitVec.ofInt 64 (a.toInt * b.toInt) = a * b := by
  simp [BitVec.ofInt_mul]

theorem prod_ok {v w : Vect τ} (ht : tags v = tags w)
    (hr : ∀ q a b, get q v = .ok a → get q w = .ok b → Vect.InRange (a.toInt * b.toInt))
    (hnd : (tags v).Nodup) :
    ∃ r, prod v w = .ok r ∧ tags r = tags v ∧
      ∀ q a b, get q v = .ok a → get q w = .ok b → get q r = .ok (a * b) := by
  obtain ⟨r, h1, h2, h3⟩ := zipVals_ok (f := sMul) (x := v) (y := w)
    (by
      intro q x hq
      obtain ⟨y, hy⟩ := get_ok_iff_mem_tags.2
        (show q ∈ tags w by rw [← ht]; exact List.mem_map_of_mem (f := Prod.fst) hq)
      exact ⟨y, _, hy, Vect.signedRes_ok (hr q x y (get_of_mem hnd hq) hy)⟩)
  refine ⟨r, by simp [prod, ht, h1], h2, ?_⟩
  intro q a b ha hb
  rw [h3 q a b ha hb, sMul, Vect.signedRes_ok (hr q a b ha hb), ofInt_mul_toInt]

theorem toInt_mul_of_range {a b : I64} (h : Vect.InRange (a.toInt * b.toInt)) :
    (a * b).toInt = a.toInt * b.toInt := by
  rw [← ofInt_mul_toInt]; exact toInt_ofInt_of_range h

/-! ## Membership along one dimension -/

theorem toNat_of_nonneg {x : I64} (h : 0 ≤ x.toInt) : (x.toNat : Int) = x.toInt := by
  have h6 := BitVec.toInt_eq_toNat_cond x
  have := x.isLt
  split at h6 <;> omega

theorem contains1d_ok {i b : U64} {n s : I64} (hn : 1 ≤ n.toInt) (hs : 1 ≤ s.toInt)
    (hp : n.toInt * s.toInt < 2 ^ 63) (hb : (b.toNat : Int) + n.toInt * s.toInt < 2 ^ 64) :
    ∃ c, contains1d i b n s = .ok c ∧
      (c = true ↔ ∃ k : Int, 0 ≤ k ∧ k < n.toInt ∧ (i.toNat : Int) = b.toNat + k * s.toInt) := by
  have hnr := toInt_range n
  have hsr := toInt_range s
  have e1 : (1 : I64).toInt = 1 := rfl
  have hm : sSub n 1 = .ok (n - 1) := by
    rw [sSub, e1, Vect.signedRes_ok (by unfold Vect.InRange; omega), ← Vect.ofInt_sub_toInt, e1]
  have hmi : (n - 1).toInt = n.toInt - 1 := by
    rw [← Vect.ofInt_sub_toInt, e1]; exact toInt_ofInt_of_range (by omega)
  have hexp : (n.toInt - 1) * s.toInt = n.toInt * s.toInt - s.toInt := by ring
  have hnn : 0 ≤ (n.toInt - 1) * s.toInt := Int.mul_nonneg (by omega) (by omega)
  have hr : Vect.InRange ((n - 1).toInt * s.toInt) := by
    rw [hmi]; unfold Vect.InRange; omega
  have hmul : sMul (n - 1) s = .ok ((n - 1) * s) := by
    rw [sMul, Vect.signedRes_ok hr, ofInt_mul_toInt]
  have hpi : ((n - 1) * s).toInt = n.toInt * s.toInt - s.toInt := by
    rw [toInt_mul_of_range hr, hmi, hexp]
  have hpn := toNat_of_nonneg (x := (n - 1) * s) (by omega)
  have hsn := toNat_of_nonneg (x := s) (by omega)
  have hbl := b.isLt; have hil := i.isLt
  have e1n : (1 : U64).toNat = 1 := rfl
  have hbound : (b + (n - 1) * s + 1).toNat = b.toNat + ((n - 1) * s).toNat + 1 := by
    rw [BitVec.toNat_add, BitVec.toNat_add, e1n]; omega
  have hs0 : s ≠ 0 := by rintro rfl; simp at hs
  by_cases c1 : b.toNat ≤ i.toNat
  · by_cases c2 : i.toNat < (b + (n - 1) * s + 1).toNat
    · refine ⟨decide ((i - b) % s = 0), ?_, ?_⟩
      · simp only [contains1d, ge_iff_le, BitVec.le_def, c1, hm, hmul, BitVec.lt_def, c2, hs0,
          not_true, if_false, Res.ok_bind, Res.pure_eq]
      · rw [hbound] at c2
        rw [decide_eq_true_iff]
        have hmod : ((i - b) % s = 0) ↔ (i.toNat - b.toNat) % s.toNat = 0 := by
          rw [← BitVec.toNat_inj, BitVec.toNat_umod, BitVec.toNat_sub]
          have : (2 ^ 64 - b.toNat + i.toNat) % 2 ^ 64 = i.toNat - b.toNat := by omega
          rw [this]; simp
        rw [hmod]
        constructor
        · intro h
          obtain ⟨k, hk⟩ := Nat.dvd_of_mod_eq_zero h
          refine ⟨k, by omega, ?_, ?_⟩
          · by_contra hc
            have : n.toInt * s.toInt ≤ k * s.toInt := Int.mul_le_mul_of_nonneg_right (by omega) (by omega)
            have h2 : ((s.toNat * k : Nat) : Int) = k * s.toInt := by
              rw [Nat.mul_comm]; push_cast; rw [hsn]
            omega
          · have h2 : ((s.toNat * k : Nat) : Int) = k * s.toInt := by
              rw [Nat.mul_comm]; push_cast; rw [hsn]
            omega
        · rintro ⟨k, hk0, _, hk⟩
          have h2 : i.toNat - b.toNat = k.toNat * s.toNat := by
            have h3 : ((k.toNat * s.toNat : Nat) : Int) = k * s.toInt := by
              push_cast; rw [hsn]; congr 1; omega
            omega
          rw [h2]; exact Nat.mul_mod_left _ _
    · refine ⟨false, ?_, ?_⟩
      · simp only [contains1d, ge_iff_le, BitVec.le_def, c1, hm, hmul, BitVec.lt_def, c2,
          not_true, not_false_eq_true, if_true, if_false, Res.ok_bind, Res.pure_eq]
      · rw [hbound] at c2
        simp only [Bool.false_eq_true, false_iff]
        rintro ⟨k, hk0, hk1, hk⟩
        have : k * s.toInt ≤ (n.toInt - 1) * s.toInt :=
          Int.mul_le_mul_of_nonneg_right (by omega) (by omega)
        omega
  · refine ⟨false, ?_, ?_⟩
    · simp only [contains1d, ge_iff_le, BitVec.le_def, c1, not_false_eq_true, if_true]
    · simp only [Bool.false_eq_true, false_iff]
      rintro ⟨k, hk0, _, hk⟩
      have : 0 ≤ k * s.toInt := Int.mul_nonneg hk0 (by omega)
      omega

/-- An empty progression away from the lower end of the index range contains nothing. -/
theorem contains1d_empty {i b : U64} {n s : I64} (hn : n.toInt = 0) (hs : 1 ≤ s.toInt)
    (hb : s.toInt ≤ b.toNat + 1) : contains1d i b n s = .ok false := by
  have hsr := toInt_range s
  have e1 : (1 : I64).toInt = 1 := rfl
  have hm : sSub n 1 = .ok (n - 1) := by
    rw [sSub, e1, Vect.signedRes_ok (by unfold Vect.InRange; omega), ← Vect.ofInt_sub_toInt, e1]
  have hmi : (n - 1).toInt = -1 := by
    rw [← Vect.ofInt_sub_toInt, e1, hn]; rfl
  have hr : Vect.InRange ((n - 1).toInt * s.toInt) := by
    rw [hmi]; unfold Vect.InRange; omega
  have hmul : sMul (n - 1) s = .ok ((n - 1) * s) := by
    rw [sMul, Vect.signedRes_ok hr, ofInt_mul_toInt]
  have hpi : ((n - 1) * s).toInt = - s.toInt := by
    rw [toInt_mul_of_range hr, hmi]; omega
  have h6 := BitVec.toInt_eq_toNat_cond ((n - 1) * s)
  have hl := ((n - 1) * s).isLt
  have e1n : (1 : U64).toNat = 1 := rfl
  have hbl := b.isLt
  have hbound : ((b + (n - 1) * s + 1).toNat : Int) = b.toNat - s.toInt + 1 := by
    rw [BitVec.toNat_add, BitVec.toNat_add, e1n]
    split at h6 <;> omega
  by_cases c1 : b.toNat ≤ i.toNat
  · have c2 : ¬ i.toNat < (b + (n - 1) * s + 1).toNat := by omega
    simp only [contains1d, ge_iff_le, BitVec.le_def, c1, hm, hmul, BitVec.lt_def, c2,
          not_true, not_false_eq_true, if_true, if_false, Res.ok_bind, Res.pure_eq]
  · simp only [contains1d, ge_iff_le, BitVec.le_def, c1, not_false_eq_true, if_true]

end SDom
end DDC
