import Verif.Lemmas.Sampling
import Verif.Lemmas.Domain
import Mathlib.Algebra.Order.Ring.Rat
import Mathlib.Order.Basic

/-!
# C28 — non-uniform sampling accepts exactly the sorted point lists and keeps them
-/

namespace DDC.Props

open Tup Dom Spec One

set_option linter.unusedSectionVars false

variable {τ K : Type} [DecidableEq τ] [Field K] [LinearOrder K]

/-- Specification: the points are in (weakly) increasing order. -/
def Increasing (pts : List K) : Prop :=
  ∀ i j (_ : i ≤ j) (hj : j < pts.length), pts[i] ≤ pts[j]

theorem isSorted_iff (pts : List K) : isSorted pts = true ↔ Increasing pts := by
  induction pts with
  | nil => simp [isSorted, Increasing]
  | cons x l ih =>
    cases l with
    | nil =>
      simp only [isSorted, true_iff]
      intro i j hij hj
      simp only [List.length_singleton] at hj
      obtain rfl : j = 0 := by omega
      obtain rfl : i = 0 := by omega
      exact le_refl _
    | cons y l =>
      rw [isSorted, Bool.and_eq_true, ih]
      simp only [Bool.not_eq_true', decide_eq_false_iff_not, not_lt]
      constructor
      · rintro ⟨h1, h2⟩ i j hij hj
        cases j with
        | zero => obtain rfl : i = 0 := by omega
                  exact le_refl _
        | succ j =>
          simp only [List.length_cons] at hj
          cases i with
          | zero =>
            have := h2 0 j (by omega) (by simpa using hj)
            simp only [List.getElem_cons_zero, List.getElem_cons_succ] at *
            exact le_trans h1 this
          | succ i =>
            have := h2 i j (by omega) (by simpa using hj)
            simpa using this
      · intro h
        refine ⟨h 0 1 (by omega) (by simp), fun i j hij hj => ?_⟩
        have := h (i + 1) (j + 1) (by omega) (by simpa using hj)
        simpa using this

theorem nu_coordinate (t : τ) (pts : List K) {i : Nat} (hi : i < 2 ^ 63) :
    (⟨pts, Elem.createReference t⟩ : NonUniform τ K).coordinate (el t i) =
      match pts[i]? with
      | some x => .ok x
      | none => .ub := by
  have h : (Elem.createReference t : Elem τ) = el t 0 := rfl
  simp only [NonUniform.coordinate, h]
  rw [sub_nat t (Nat.zero_le i)]
  simp only [Res.ok_bind, vec, Vect.value, Nat.sub_zero, NonUniform.read, toInt_ofNat hi,
    Int.toNat_natCast]
  rw [if_neg (by omega)]
  cases pts[i]? <;> rfl

theorem nu_coordinate_ok (t : τ) (pts : List K) {i : Nat} (hi : i < 2 ^ 63) (h : i < pts.length) :
    (⟨pts, Elem.createReference t⟩ : NonUniform τ K).coordinate (el t i) = .ok pts[i] := by
  rw [nu_coordinate t pts hi, List.getElem?_eq_getElem h]

private theorem seg_lo (t : τ) {n : Nat} : lo t (seg t 0 n) = 0 := by
  rw [seg, lo_ok (One.get t _)]; rfl

private theorem seg_hi (t : τ) {n : Nat} (h : n < 2 ^ 63) : hi t (seg t 0 n) = n := by
  rw [seg, hi_ok (One.get t _), BitVec.toNat_ofNat]; omega

private theorem init_ok (t : τ) (pts : List K) (h0 : pts ≠ []) (hs : Increasing pts) :
    NonUniform.init t pts = .ok (⟨pts, Elem.createReference t⟩, seg t 0 pts.length) := by
  have h1 : pts.isEmpty = false := by simpa using h0
  have h2 : (Elem.createReference t : Elem τ) = el t 0 := rfl
  simp only [NonUniform.init, NonUniform.mk', h1, Bool.not_false, Res.guardAbort_true, Res.ok_bind,
    (isSorted_iff pts).2 hs, if_true, h2]
  rw [← vec, ofSize_nat]
  simp

/-- The constructor throws exactly when the points are not in increasing order; otherwise it keeps
the points as they are. -/
theorem C28_accepts (t : τ) (pts : List K) :
    (NonUniform.mk' t pts = .throw ↔ ¬ Increasing pts) ∧
    (∀ u, NonUniform.mk' t pts = .ok u → u.points = pts) ∧
    (Increasing pts → ∃ u, NonUniform.mk' t pts = .ok u) := by
  unfold NonUniform.mk'
  by_cases h : isSorted pts = true
  · have := (isSorted_iff pts).1 h
    simp only [h, if_true]
    exact ⟨⟨fun e => (nomatch e), fun e => absurd this e⟩,
      fun u e => by obtain rfl := Res.ok.inj e; rfl, fun _ => ⟨_, rfl⟩⟩
  · have := fun e => h ((isSorted_iff pts).2 e)
    simp only [h]
    exact ⟨⟨fun _ => this, fun _ => rfl⟩, fun u e => (nomatch e), fun e => absurd e this⟩

/-- `init` aborts without points and throws on unsorted points. -/
theorem C28_rejects (t : τ) (pts : List K) :
    (pts = [] → NonUniform.init t pts = .abort) ∧
    (¬ Increasing pts → NonUniform.init t pts = .throw) := by
  constructor
  · rintro rfl; rfl
  · intro h
    have h0 : pts.isEmpty = false := by
      cases pts with
      | nil => exact absurd (fun _ _ _ hj => absurd hj (by simp)) h
      | cons => rfl
    have h1 : isSorted pts = false := by
      cases hs : isSorted pts with
      | true => exact absurd ((isSorted_iff pts).1 hs) h
      | false => rfl
    simp [NonUniform.init, NonUniform.mk', h0, h1]

/-- After `init` on sorted points the domain has one element per point, the coordinate of the `i`-th
element is the `i`-th point and elements outside of the domain have no coordinate; the distances are
the consecutive differences (undefined at the ends), and `rmin`, `rmax`, `rlength` are given by the
extreme points. -/
theorem C28_init (t : τ) (pts : List K) (h0 : pts ≠ []) (hl : pts.length < 2 ^ 63 - 1)
    (hs : Increasing pts) :
    ∃ u d, NonUniform.init t pts = .ok (u, d) ∧ tags d = [t] ∧ Valid d ∧
      len t d = pts.length ∧ u.size.toNat = pts.length ∧
      (∀ i (h : i < pts.length), u.coordinate [(t, BitVec.ofNat 64 (lo t d + i))] = .ok pts[i]) ∧
      (∀ i, pts.length ≤ i → i < 2 ^ 64 → u.coordinate [(t, BitVec.ofNat 64 i)] = .ub) ∧
      (∀ i (h : i + 1 < pts.length),
        u.distanceAtRight [(t, BitVec.ofNat 64 (lo t d + i))] = .ok (pts[i + 1] - pts[i]) ∧
        u.distanceAtLeft [(t, BitVec.ofNat 64 (lo t d + (i + 1)))] = .ok (pts[i + 1] - pts[i])) ∧
      u.distanceAtLeft (Dom.front d) = .ub ∧
      u.distanceAtRight [(t, BitVec.ofNat 64 (lo t d + (pts.length - 1)))] = .ub ∧
      u.rmin d = .ok (pts.head h0) ∧ u.rmax d = .ok (pts.getLast h0) ∧
      u.rlength d = .ok (pts.getLast h0 - pts.head h0) := by
  have hpos : 0 < pts.length := List.length_pos_iff.2 h0
  refine ⟨⟨pts, Elem.createReference t⟩, seg t 0 pts.length, init_ok t pts h0 hs, rfl, ?_, ?_, ?_, ?_,
    ?_, ?_, ?_, ?_, ?_⟩
  · refine ⟨by simp [seg], fun q hq => ?_⟩
    simp only [seg, tags_cons, tags_nil, List.mem_singleton] at hq
    subst hq
    rw [len, seg_lo, seg_hi q (by omega)]; omega
  · rw [len, seg_lo, seg_hi t (by omega)]; rfl
  · rw [NonUniform.size, BitVec.toNat_ofNat]; simp only; omega
  · intro i h
    rw [seg_lo, Nat.zero_add]
    exact nu_coordinate_ok t pts (by omega) h
  · intro i h hi
    by_cases hi' : i < 2 ^ 63
    · rw [← el, nu_coordinate t pts hi', List.getElem?_eq_none h]
    · have hz : (BitVec.ofNat 64 i - BitVec.ofNat 64 0).toInt < 0 := by
        rw [BitVec.toInt_eq_toNat_cond, BitVec.toNat_sub, BitVec.toNat_ofNat, BitVec.toNat_ofNat]
        split <;> omega
      have h : (Elem.createReference t : Elem τ) = [(t, BitVec.ofNat 64 0)] := rfl
      simp only [NonUniform.coordinate, h]
      rw [One.sub]
      simp only [Res.ok_bind, Vect.value, NonUniform.read, if_pos hz]
  · intro i h
    have e1 : (1 : I64) = BitVec.ofNat 64 1 := rfl
    rw [seg_lo, Nat.zero_add, Nat.zero_add]
    constructor
    · simp only [NonUniform.distanceAtRight, Elem.addInt, Res.ok_bind]
      rw [e1, ← BitVec.ofNat_add, ← el, ← el, nu_coordinate_ok t pts (by omega) h,
        nu_coordinate_ok t pts (by omega) (by omega)]
      rfl
    · simp only [NonUniform.distanceAtLeft, Elem.subInt, Res.ok_bind]
      rw [e1, ofNat_sub (by omega), ← el, ← el, nu_coordinate_ok t pts (by omega) h,
        nu_coordinate_ok t pts (by omega) (by omega)]
      rfl
  · have hz : ((BitVec.ofNat 64 0 - 1) - BitVec.ofNat 64 0 : BitVec 64).toInt < 0 := by decide
    rw [One.front, NonUniform.distanceAtLeft, nu_coordinate_ok t pts (by omega) hpos]
    have h : (Elem.createReference t : Elem τ) = [(t, BitVec.ofNat 64 0)] := rfl
    simp only [Res.ok_bind, el, Elem.subInt, NonUniform.coordinate, h]
    rw [One.sub]
    simp only [Res.ok_bind, Vect.value, NonUniform.read, if_pos hz, Res.ub_bind]
  · have e1 : (1 : I64) = BitVec.ofNat 64 1 := rfl
    rw [seg_lo, Nat.zero_add]
    simp only [NonUniform.distanceAtRight, Elem.addInt, Res.ok_bind]
    rw [e1, ← BitVec.ofNat_add, ← el, nu_coordinate t pts (by omega), List.getElem?_eq_none (by omega)]
    rfl
  · have hmin : (⟨pts, Elem.createReference t⟩ : NonUniform τ K).rmin (seg t 0 pts.length) =
        .ok (pts.head h0) := by
      rw [NonUniform.rmin, One.front, nu_coordinate_ok t pts (by omega) hpos, List.head_eq_getElem]
    have hmax : (⟨pts, Elem.createReference t⟩ : NonUniform τ K).rmax (seg t 0 pts.length) =
        .ok (pts.getLast h0) := by
      rw [NonUniform.rmax, back_nat t hpos, Res.ok_bind, nu_coordinate_ok t pts (by omega) (by omega),
        List.getLast_eq_getElem]
    exact ⟨hmin, hmax, by rw [NonUniform.rlength, hmax, hmin]; rfl⟩

/-- The coordinates are weakly increasing along the domain. -/
theorem C28_monotone (t : τ) (pts : List K) (hl : pts.length < 2 ^ 63 - 1) (u : NonUniform τ K)
    (d : Dom τ) (h : NonUniform.init t pts = .ok (u, d)) (i j : Nat) (hij : i ≤ j)
    (hj : j < pts.length) (x y : K)
    (hx : u.coordinate [(t, BitVec.ofNat 64 (lo t d + i))] = .ok x)
    (hy : u.coordinate [(t, BitVec.ofNat 64 (lo t d + j))] = .ok y) : x ≤ y := by
  have h0 : pts ≠ [] := by rintro rfl; simp at hj
  have hs : Increasing pts := by
    by_contra hc
    rw [(C28_rejects t pts).2 hc] at h
    exact nomatch h
  obtain ⟨u', d', h1, _, _, _, _, h2, _⟩ := C28_init t pts h0 hl hs
  rw [h] at h1
  obtain ⟨rfl, rfl⟩ := Prod.mk.inj (Res.ok.inj h1)
  rw [h2 i (by omega)] at hx; rw [h2 j hj] at hy
  obtain rfl := Res.ok.inj hx
  obtain rfl := Res.ok.inj hy
  exact hs i j hij hj

/-- Three points, two of them equal. -/
example : ∃ u d, NonUniform.init "x" [(0 : Rat), 1 / 2, 1 / 2, 3] = .ok (u, d) ∧
    u.distanceAtRight [("x", 2)] = .ok (5 / 2) ∧ u.rlength d = .ok 3 := by
  refine ⟨⟨[0, 1 / 2, 1 / 2, 3], [("x", 0)]⟩, [("x", (0, 4))], by decide +kernel, by decide +kernel,
    by decide +kernel⟩

/-- Unsorted points are rejected. -/
example : NonUniform.init "x" [(0 : Rat), 2, 1] = .throw := by decide +kernel

end DDC.Props
