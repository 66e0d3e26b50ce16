import Mathlib.Algebra.BigOperators.Group.List.Basic
import Mathlib.Tactic.Linarith
import Mathlib.Tactic.Ring
import Mathlib.Data.List.Forall2

/-!
# Mixed-radix numbers
-/

namespace DDC

/-- Row-major rank of the multi-index `is` in a box of sides `ns`. -/
def Spec.radix : List Nat → List Nat → Nat
  | _ :: ns, i :: is => i * ns.prod + radix ns is
  | _, _ => 0

/-- Column-major rank. -/
def Spec.radixL : List Nat → List Nat → Nat
  | n :: ns, i :: is => i + n * radixL ns is
  | _, _ => 0

/-- `is` is a multi-index of the box of sides `ns`. -/
abbrev Spec.Within (ns is : List Nat) : Prop := List.Forall₂ (fun n i => i < n) ns is

/-- Lexicographic order on multi-indices. -/
def Spec.LexIdx : List Nat → List Nat → Prop
  | i :: is, j :: js => i < j ∨ (i = j ∧ LexIdx is js)
  | _, _ => False

/-- Order on multi-indices where the last one has the most weight. -/
def Spec.ColexIdx : List Nat → List Nat → Prop
  | i :: is, j :: js => ColexIdx is js ∨ (is = js ∧ i < j)
  | _, _ => False

open Spec

theorem radix_lt {ns is : List Nat} (h : Within ns is) : radix ns is < ns.prod := by
  induction h with
  | nil => simp [radix]
  | @cons n i ns is hi _ ih =>
    simp only [radix, List.prod_cons]
    calc i * ns.prod + radix ns is < i * ns.prod + ns.prod := by omega
      _ = (i + 1) * ns.prod := by ring
      _ ≤ n * ns.prod := Nat.mul_le_mul_right _ hi

theorem radixL_lt {ns is : List Nat} (h : Within ns is) : radixL ns is < ns.prod := by
  induction h with
  | nil => simp [radixL]
  | @cons n i ns is hi _ ih =>
    simp only [radixL, List.prod_cons]
    calc i + n * radixL ns is < n + n * radixL ns is := by omega
      _ = n * (radixL ns is + 1) := by ring
      _ ≤ n * ns.prod := Nat.mul_le_mul_left _ ih

theorem radix_lex {ns is js : List Nat} (hi : Within ns is) (hj : Within ns js) (h : LexIdx is js) :
    radix ns is < radix ns js := by
  induction hi generalizing js with
  | nil => simp [LexIdx] at h
  | @cons n i ns is hi hI ih =>
    cases hj with
    | @cons _ j _ js hj hJ =>
      simp only [radix]
      rcases h with h | ⟨rfl, h⟩
      · have := radix_lt hI
        calc i * ns.prod + radix ns is < i * ns.prod + ns.prod := by omega
          _ = (i + 1) * ns.prod := by ring
          _ ≤ j * ns.prod := Nat.mul_le_mul_right _ h
          _ ≤ _ := by omega
      · have := ih hJ h; omega

theorem radixL_colex {ns is js : List Nat} (hi : Within ns is) (hj : Within ns js) (h : ColexIdx is js) :
    radixL ns is < radixL ns js := by
  induction hi generalizing js with
  | nil => simp [ColexIdx] at h
  | @cons n i ns is hi hI ih =>
    cases hj with
    | @cons _ j _ js hj hJ =>
      simp only [radixL]
      rcases h with h | ⟨rfl, h⟩
      · have := ih hJ h
        calc i + n * radixL ns is < n + n * radixL ns is := by omega
          _ = n * (radixL ns is + 1) := by ring
          _ ≤ n * radixL ns js := Nat.mul_le_mul_left _ this
          _ ≤ _ := by omega
      · omega

theorem lexIdx_total {ns is js : List Nat} (hi : Within ns is) (hj : Within ns js) (h : is ≠ js) :
    LexIdx is js ∨ LexIdx js is := by
  induction hi generalizing js with
  | nil => cases hj; exact absurd rfl h
  | @cons n i ns is hi hI ih =>
    cases hj with
    | @cons _ j _ js hj hJ =>
      simp only [LexIdx]
      by_cases hij : i = j
      · subst hij
        have : is ≠ js := by rintro rfl; exact h rfl
        rcases ih hJ this with h | h <;> simp [h]
      · omega

theorem colexIdx_total {ns is js : List Nat} (hi : Within ns is) (hj : Within ns js) (h : is ≠ js) :
    ColexIdx is js ∨ ColexIdx js is := by
  induction hi generalizing js with
  | nil => cases hj; exact absurd rfl h
  | @cons n i ns is hi hI ih =>
    cases hj with
    | @cons _ j _ js hj hJ =>
      simp only [ColexIdx]
      by_cases hij : is = js
      · subst hij
        have : i ≠ j := by rintro rfl; exact h rfl
        rcases Nat.lt_or_gt_of_ne this with h | h <;> simp [h]
      · rcases ih hJ hij with h | h <;> simp [h]

theorem radix_inj {ns is js : List Nat} (hi : Within ns is) (hj : Within ns js)
    (h : radix ns is = radix ns js) : is = js := by
  by_contra hne
  rcases lexIdx_total hi hj hne with h' | h'
  · have := radix_lex hi hj h'; omega
  · have := radix_lex hj hi h'; omega

theorem radixL_inj {ns is js : List Nat} (hi : Within ns is) (hj : Within ns js)
    (h : radixL ns is = radixL ns js) : is = js := by
  by_contra hne
  rcases colexIdx_total hi hj hne with h' | h'
  · have := radixL_colex hi hj h'; omega
  · have := radixL_colex hj hi h'; omega

theorem radix_surj {ns : List Nat} {p : Nat} (h : p < ns.prod) :
    ∃ is, Within ns is ∧ radix ns is = p := by
  induction ns generalizing p with
  | nil => simp at h; exact ⟨[], .nil, by simp [radix, h]⟩
  | cons n ns ih =>
    simp only [List.prod_cons] at h
    have hpos : 0 < ns.prod := by
      rcases Nat.eq_zero_or_pos ns.prod with h0 | h0
      · rw [h0] at h; omega
      · exact h0
    obtain ⟨is, h1, h2⟩ := ih (Nat.mod_lt p hpos)
    refine ⟨p / ns.prod :: is, .cons (Nat.div_lt_of_lt_mul (by rwa [Nat.mul_comm])) h1, ?_⟩
    simp only [radix, h2]
    rw [Nat.mul_comm]; exact Nat.div_add_mod p _

theorem radixL_surj {ns : List Nat} {p : Nat} (h : p < ns.prod) :
    ∃ is, Within ns is ∧ radixL ns is = p := by
  induction ns generalizing p with
  | nil => simp at h; exact ⟨[], .nil, by simp [radixL, h]⟩
  | cons n ns ih =>
    simp only [List.prod_cons] at h
    have hpos : 0 < n := by
      rcases Nat.eq_zero_or_pos n with h0 | h0
      · rw [h0] at h; omega
      · exact h0
    obtain ⟨is, h1, h2⟩ := ih (p := p / n) (Nat.div_lt_of_lt_mul h)
    refine ⟨p % n :: is, .cons (Nat.mod_lt p hpos) h1, ?_⟩
    simp only [radixL, h2]
    exact Nat.mod_add_div p n

end DDC
