import Verif.Lemmas.DomainOps
import Verif.Props.C05

/-!
# C08  Domain equality coincides with equality of the sets of points (contiguous domains)

The strided and sparse cases are in `C08b.lean`.
-/

namespace DDC.Props

open Tup Dom Spec

variable {τ : Type} [DecidableEq τ]

/-- Specification: the two domains contain the same elements. -/
def SamePoints (a b : Dom τ) : Prop :=
  ∀ e : Elem τ, SameTags e a → (contains a [e] = .ok true ↔ contains b [e] = .ok true)

private theorem contains_iff' {d : Dom τ} (hd : (tags d).Nodup) {e : Elem τ} (hs : SameTags e d) :
    contains d [e] = .ok true ↔ InBox d e := by
  obtain ⟨c, g1, g2⟩ := contains_one hd hs
  rw [g1, ← g2]; simp

private theorem card_pos {d : Dom τ} : card d ≠ 0 ↔ ∀ q ∈ tags d, 0 < len q d := by
  rw [card]
  generalize tags d = l
  induction l with
  | nil => simp
  | cons q l ih =>
    simp only [List.map_cons, List.prod_cons, Nat.mul_ne_zero_iff, ih, List.mem_cons,
      forall_eq_or_imp, Nat.pos_iff_ne_zero]

private theorem empty_iff {d : Dom τ} (hd : Valid d) (hc : card d < 2 ^ 64) :
    empty d = .ok (decide (card d = 0)) := by
  obtain ⟨s, h1, h2⟩ := size_ok d hd
  rw [Nat.mod_eq_of_lt hc] at h2
  simp only [empty, h1, Res.ok_bind, Res.pure_eq]
  congr 1
  rw [decide_eq_decide, ← h2]
  exact ⟨fun h => by rw [h]; rfl, fun h => BitVec.eq_of_toNat_eq (by simpa using h)⟩

private theorem bounds_le {a b : Dom τ} (ha : Valid a) (hb : Valid b) (hs : SameTags a b)
    (hne : ∀ q ∈ tags a, 0 < len q a) (h : SamePoints a b) :
    ∀ q ∈ tags a, lo q b ≤ lo q a ∧ hi q a ≤ hi q b := by
  obtain ⟨bk, h1, h2, h3, h4, h5, h6⟩ := C05_front_back a ha hne
  have f1 := (h (front a) (by rw [SameTags, h3])).1 h4
  rw [contains_iff' hb.1 (by rw [SameTags, h3]; exact hs)] at f1
  have f2 := (h bk (by rw [SameTags, h2])).1 h5
  rw [contains_iff' hb.1 (by rw [SameTags, h2]; exact hs)] at f2
  obtain ⟨bk', k1, k2, k3⟩ := back_ok a ha.1
  rw [h1] at k1; injection k1 with k1; subst k1
  intro q hq
  have g1 := f1 q (hs.mem_iff.1 hq); have g2 := f2 q (hs.mem_iff.1 hq)
  rw [front, idx_beg] at g1
  obtain ⟨⟨x, y⟩, hxy⟩ := get_ok_iff_mem_tags.2 hq
  have := hne q hq
  rw [len, lo_ok hxy, hi_ok hxy] at this
  rw [idx_ok (k3 q x y hxy), BitVec.toNat_sub] at g2
  have e1 : (1 : U64).toNat = 1 := rfl
  rw [e1] at g2
  have := y.isLt
  rw [hi_ok hxy]
  omega

/-- `a == b` always has a value for domains over the same tags (in any order), and
it is `true` exactly when the two domains contain the same elements. -/
theorem C08_eq_iff (a b : Dom τ) (ha : Valid a) (hb : Valid b) (hs : SameTags a b)
    (ca : card a < 2 ^ 64) (cb : card b < 2 ^ 64) :
    ∃ r, Dom.eq a b = .ok r ∧ ne a b = .ok (!r) ∧ (r = true ↔ SamePoints a b) := by
  obtain ⟨c1, p1, p2⟩ := eqFold_ok (x := beg a) (y := beg b) (by rw [tags_beg]; exact ha.1)
    (by intro q hq; rw [tags_beg] at *; exact hs.mem_iff.1 hq)
  obtain ⟨c2, r1, r2⟩ := eqFold_ok (x := fin a) (y := fin b) (by rw [tags_fin]; exact ha.1)
    (by intro q hq; rw [tags_fin] at *; exact hs.mem_iff.1 hq)
  have hrank : (!a.isEmpty || b.isEmpty) = true := by
    have h := hs.length_eq
    rw [length_tags, length_tags] at h
    cases a <;> cases b <;> simp_all
  have e1 : Dom.eq a b = .ok (if (decide (card a = 0) && decide (card b = 0)) = true then true
      else (c1 && c2)) := by
    simp only [Dom.eq, Elem.eq, p1, r1, empty_iff ha ca, empty_iff hb cb, hrank, Res.guardIll_true,
      Res.ok_bind, Res.pure_eq]
    split <;> rfl
  refine ⟨_, e1, by simp [ne, e1], ?_⟩
  have hempty : ∀ d : Dom τ, Valid d → card d = 0 → ∀ e, SameTags e d → contains d [e] ≠ .ok true := by
    intro d hd h0 e he h
    rw [contains_iff' hd.1 he] at h
    refine absurd h0 (card_pos.2 ?_)
    intro q hq
    have := h q hq
    simp only [len]; omega
  have hbounds : (c1 && c2) = true ↔ ∀ q ∈ tags a, lo q a = lo q b ∧ hi q a = hi q b := by
    rw [Bool.and_eq_true, p2, r2, tags_beg, tags_fin]
    constructor
    · rintro ⟨h1, h2⟩ q hq
      have := h1 q hq; have := h2 q hq
      rw [← idx_beg, ← idx_beg, ← idx_fin, ← idx_fin]
      exact ⟨by simp only [idx, h1 q hq], by simp only [idx, h2 q hq]⟩
    · intro h
      have key : ∀ q ∈ tags a, get q a = get q b := by
        intro q hq
        obtain ⟨⟨x, y⟩, hxy⟩ := get_ok_iff_mem_tags.2 hq
        obtain ⟨⟨z, w⟩, hzw⟩ := get_ok_iff_mem_tags.2 (hs.mem_iff.1 hq)
        have := h q hq
        rw [lo_ok hxy, hi_ok hxy, lo_ok hzw, hi_ok hzw] at this
        rw [hxy, hzw, BitVec.eq_of_toNat_eq this.1, BitVec.eq_of_toNat_eq this.2]
      exact ⟨fun q hq => by rw [get_beg, get_beg, key q hq], fun q hq => by rw [get_fin, get_fin, key q hq]⟩
  have hfwd : (∀ q ∈ tags a, lo q a = lo q b ∧ hi q a = hi q b) → SamePoints a b := by
    intro h e he
    rw [contains_iff' ha.1 he, contains_iff' hb.1 (he.trans hs)]
    constructor
    · intro h' q hq
      have hq' := hs.mem_iff.2 hq
      have := h q hq'; have := h' q hq'; omega
    · intro h' q hq
      have hq' := hs.mem_iff.1 hq
      have := h q hq; have := h' q hq'; omega
  have hsym : SamePoints a b → SamePoints b a := fun h e he => (h e (he.trans hs.symm)).symm
  by_cases h0 : card a = 0
  · by_cases h1 : card b = 0
    · simp only [h0, h1, decide_true, Bool.and_self, if_true, true_iff]
      intro e he
      exact ⟨fun h => absurd h (hempty a ha h0 e he), fun h => absurd h (hempty b hb h1 e (he.trans hs))⟩
    · simp only [h0, h1, decide_true, decide_false, Bool.and_false, Bool.false_eq_true, if_false]
      rw [hbounds]
      refine ⟨hfwd, fun h => ?_⟩
      obtain ⟨bk, _, h2, h3, h4, _⟩ := C05_front_back b hb (card_pos.1 h1)
      have hst : SameTags (front b) a := by rw [SameTags, h3]; exact hs.symm
      exact absurd ((h (front b) hst).2 h4) (hempty a ha h0 _ hst)
  · simp only [h0, decide_false, Bool.false_and, Bool.false_eq_true, if_false]
    rw [hbounds]
    refine ⟨hfwd, fun h => ?_⟩
    have h1 : card b ≠ 0 := by
      intro h1
      obtain ⟨bk, _, h2, h3, h4, _⟩ := C05_front_back a ha (card_pos.1 h0)
      have hst : SameTags (front a) b := by rw [SameTags, h3]; exact hs
      exact hempty b hb h1 _ hst ((h (front a) (by rw [SameTags, h3])).1 h4)
    have l1 := bounds_le ha hb hs (card_pos.1 h0) h
    have l2 := bounds_le hb ha hs.symm (card_pos.1 h1) (hsym h)
    intro q hq
    have := l1 q hq; have := l2 q (hs.mem_iff.1 hq)
    omega

/-- Equality is reflexive, symmetric and transitive. -/
theorem C08_eq_equiv (a b c : Dom τ) (ha : Valid a) (hb : Valid b) (hc : Valid c)
    (hab : SameTags a b) (hbc : SameTags b c)
    (ca : card a < 2 ^ 64) (cb : card b < 2 ^ 64) (cc : card c < 2 ^ 64) :
    Dom.eq a a = .ok true ∧ Dom.eq a b = Dom.eq b a ∧
      (Dom.eq a b = .ok true → Dom.eq b c = .ok true → Dom.eq a c = .ok true) := by
  obtain ⟨r1, h1, _, g1⟩ := C08_eq_iff a a ha ha (List.Perm.refl _) ca ca
  obtain ⟨r2, h2, _, g2⟩ := C08_eq_iff a b ha hb hab ca cb
  obtain ⟨r3, h3, _, g3⟩ := C08_eq_iff b a hb ha hab.symm cb ca
  obtain ⟨r4, h4, _, g4⟩ := C08_eq_iff b c hb hc hbc cb cc
  obtain ⟨r5, h5, _, g5⟩ := C08_eq_iff a c ha hc (hab.trans hbc) ca cc
  refine ⟨?_, ?_, ?_⟩
  · rw [h1]; congr 1; rw [g1]; intro e _; exact Iff.rfl
  · rw [h2, h3]; congr 1; rw [Bool.eq_iff_iff, g2, g3]
    exact ⟨fun h e he => (h e (he.trans hab.symm)).symm, fun h e he => (h e (he.trans hab)).symm⟩
  · rw [h2, h4, h5]
    simp only [Res.ok.injEq]
    rw [g2, g4, g5]
    intro x y e he
    exact (x e he).trans (y e (he.trans hab))

/-- Where the number of points is not representable the claim fails in the code:
two different non-empty domains with `2^64` and `2^65` points compare equal. -/
theorem C08_eq_wraps :
    ∃ a b : Dom Char, Valid a ∧ Valid b ∧ SameTags a b ∧ Dom.eq a b = .ok true ∧ ¬ SamePoints a b := by
  refine ⟨[('x', (0, 0x100000000)), ('y', (0, 0x100000000))],
    [('x', (0, 0x200000000)), ('y', (0, 0x100000000))], ⟨by decide, ?_⟩, ⟨by decide, ?_⟩,
    List.Perm.refl _, by decide, ?_⟩
  · intro q hq
    simp only [tags, List.map_cons, List.map_nil, List.mem_cons, List.not_mem_nil, or_false] at hq
    rcases hq with rfl | rfl <;> decide
  · intro q hq
    simp only [tags, List.map_cons, List.map_nil, List.mem_cons, List.not_mem_nil, or_false] at hq
    rcases hq with rfl | rfl <;> decide
  · intro h
    have := (h [('x', 0x100000000), ('y', 0)] (List.Perm.refl _)).2 (by decide)
    revert this; decide

/-! Non-vacuity: transposed tags, empty domains with different fronts. -/
example : Dom.eq ([('x', (1, 3)), ('y', (4, 5))] : Dom Char) [('y', (4, 5)), ('x', (1, 3))] = .ok true ∧
    Dom.eq ([('x', (1, 1)), ('y', (4, 5))] : Dom Char) [('x', (7, 9)), ('y', (2, 2))] = .ok true ∧
    Dom.eq ([('x', (1, 3))] : Dom Char) [('x', (1, 4))] = .ok false := by decide

end DDC.Props
