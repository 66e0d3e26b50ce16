import Verif.Lemmas.RoundedTriangle
import Verif.Lemmas.NUBS
import Verif.Model.RoundedBasis

/-!
# The loops of `eval_basis` with rounding
-/

namespace DDC.Rounded

variable (fl : Rat → Rat)

/-- The values of `xx`. -/
def xxR (o : Rat) : Nat → Rat
  | 0 => -o
  | r + 1 => fl (xxR o r + 1)

/-- The numerators of the uniform scheme. -/
def uA (o : Rat) (_ r : Nat) : Rat := xxR fl o (r + 1)

/-- The other numerators. -/
def uB (o : Rat) (j r : Nat) : Rat := fl (((j + 1 : Nat) : Rat) - xxR fl o (r + 1))

/-- The denominators. -/
def uD (j _ : Nat) : Rat := ((j + 1 : Nat) : Rat)

variable {fl}

theorem Knots.basisOuter_ok (o s0 : Rat) (j : Nat) (a : Arr Rat) (n : Nat) (hn : j + 1 < n)
    (h : Line a n (triR fl (uA fl o) (uB fl o) uD s0 j) j) :
    ∃ a', Knots.basisOuter fl o (j + 1) a = .ok a' ∧ Line a' n (triR fl (uA fl o) (uB fl o) uD s0 (j + 1)) (j + 1) := by
  obtain ⟨s, e, h1, h2, h3, h4, h5⟩ := forLoop_inv
    (f := Knots.basisInner fl (j + 1))
    (fun r (s : Arr Rat × Rat × Rat) => s.1.size = n ∧
      (∀ i, i < r → s.1.val i = some (triR fl (uA fl o) (uB fl o) uD s0 (j + 1) i)) ∧
      (∀ i, r ≤ i → i ≤ j → s.1.val i = some (triR fl (uA fl o) (uB fl o) uD s0 j i)) ∧
      s.2.1 = xxR fl o r ∧
      s.2.2 = if r = 0 then 0 else
        fl (uB fl o j (r - 1) * fl (triR fl (uA fl o) (uB fl o) uD s0 j (r - 1) / uD j (r - 1))))
    (j + 1) 0 (a, -o, 0) ⟨h.1, fun i hi => absurd hi (by omega), fun i _ hi => h.2 i hi, rfl, by simp⟩
    (by
      rintro r ⟨a, xx, sv⟩ - hr ⟨h1, h2, h3, h4, h5⟩
      simp only at h1 h2 h3 h4 h5
      have hr' : r ≤ j := by omega
      have hrn : r < a.size := by omega
      simp only [Knots.basisInner, Arr.rd_ok hrn (h3 r (Nat.le_refl _) hr'), Res.ok_bind,
        Arr.wr_ok hrn, Res.pure_eq]
      refine ⟨_, rfl, by simpa using h1, ?_, ?_, ?_, ?_⟩
      · intro i hi
        rw [Arr.set_val]
        split
        · subst i
          congr 1
          rw [triR, if_neg (show r ≠ j + 1 by omega), ← h5, h4]
          rfl
        · exact h2 i (by omega)
      · intro i hi hi'
        rw [Arr.set_val, if_neg (by omega)]
        exact h3 i (by omega) hi'
      · rw [h4]; rfl
      · rw [if_neg (by omega), h4]
        simp only [Nat.add_sub_cancel]
        rfl)
  simp only [Knots.basisOuter, e, Res.ok_bind]
  rw [Arr.wr_ok (by omega)]
  refine ⟨_, rfl, by simpa using h1, fun r hr => ?_⟩
  rw [Arr.set_val]
  split
  · subst r
    congr 1
    rw [triR, if_pos rfl, h5]
    simp
  · exact h2 r (by omega)

theorem Knots.triangle_ok (o s0 : Rat) (q : Nat) (a : Arr Rat) (n : Nat) (hn : q < n) (hs : a.size = n)
    (h0 : a.val 0 = some s0) :
    ∃ a', forLoop (Knots.basisOuter fl o) 1 q a = .ok a' ∧ Line a' n (triR fl (uA fl o) (uB fl o) uD s0 q) q := by
  obtain ⟨a', e, h⟩ := forLoop_inv (f := Knots.basisOuter fl o)
    (fun j a => Line a n (triR fl (uA fl o) (uB fl o) uD s0 (j - 1)) (j - 1)) q 1 a
    ⟨hs, fun r hr => by obtain rfl : r = 0 := by omega
                        exact h0⟩
    (fun j a hj hj' h => by
      obtain ⟨j, rfl⟩ : ∃ k, j = k + 1 := ⟨j - 1, by omega⟩
      simp only [Nat.add_sub_cancel] at h ⊢
      exact Knots.basisOuter_ok o s0 j a n (by omega) h)
  refine ⟨a', e, ?_⟩
  simpa using h

/-! ## Non-uniform B-splines -/

variable (fl)

/-- The numerators of the non-uniform scheme. -/
def nA (t : Nat → Rat) (x : Rat) (c _ r : Nat) : Rat := fl (t (c + r + 1) - x)

/-- The other numerators. -/
def nB (t : Nat → Rat) (x : Rat) (c j r : Nat) : Rat := fl (x - t (c - j + r))

/-- The denominators. -/
def nD (t : Nat → Rat) (x : Rat) (c j r : Nat) : Rat := fl (nA fl t x c j r + nB fl t x c j r)

variable {fl} {t : Nat → Rat}

/-- The arrays `left` and `right` are filled up to `j`. -/
structure Sides (fl : Rat → Rat) (t : Nat → Rat) (x : Rat) (c p : Nat) (left right : Arr Rat) (j : Nat) : Prop where
  lsize : left.size = p
  rsize : right.size = p
  lval : ∀ i, i < j → left.val i = some (fl (x - t (c - i)))
  rval : ∀ i, i < j → right.val i = some (fl (t (c + i + 1) - x))

theorem Sides.next {x : Rat} {c p : Nat} {left right : Arr Rat} {j : Nat}
    (h : Sides fl t x c p left right j) :
    Sides fl t x c p (left.set j (fl (x - t (c - j)))) (right.set j (fl (t (c + j + 1) - x))) (j + 1) where
  lsize := h.lsize
  rsize := h.rsize
  lval i hi := by
    rw [Arr.set_val]
    split
    · subst i; rfl
    · exact h.lval i (by omega)
  rval i hi := by
    rw [Arr.set_val]
    split
    · subst i; rfl
    · exact h.rval i (by omega)

theorem basisInner_ok {x s0 : Rat} {c p : Nat} {left right : Arr Rat} {j : Nat} (hj : j < p) (hc : p ≤ c)
    (hlr : Sides fl t x c p left right (j + 1)) (N : Nat) (hN : j + 1 < N) (a : Arr Rat)
    (h : Line a N (triR fl (nA fl t x c) (nB fl t x c) (nD fl t x c) s0 j) j) :
    ∃ s, forLoop (basisInner fl left right j) 0 (j + 1) (a, 0) = .ok s ∧ s.1.size = N ∧
      (∀ r, r ≤ j → s.1.val r = some (triR fl (nA fl t x c) (nB fl t x c) (nD fl t x c) s0 (j + 1) r)) ∧
      s.2 = triR fl (nA fl t x c) (nB fl t x c) (nD fl t x c) s0 (j + 1) (j + 1) := by
  obtain ⟨s, e, h1, h2, h3, h5⟩ := forLoop_inv
    (f := basisInner fl left right j)
    (fun r (s : Arr Rat × Rat) => s.1.size = N ∧
      (∀ i, i < r → s.1.val i = some (triR fl (nA fl t x c) (nB fl t x c) (nD fl t x c) s0 (j + 1) i)) ∧
      (∀ i, r ≤ i → i ≤ j → s.1.val i = some (triR fl (nA fl t x c) (nB fl t x c) (nD fl t x c) s0 j i)) ∧
      s.2 = if r = 0 then 0 else fl (nB fl t x c j (r - 1) *
        fl (triR fl (nA fl t x c) (nB fl t x c) (nD fl t x c) s0 j (r - 1) / nD fl t x c j (r - 1))))
    (j + 1) 0 (a, 0) ⟨h.1, fun i hi => absurd hi (by omega), fun i _ hi => h.2 i hi, by simp⟩
    (by
      rintro r ⟨a, sv⟩ - hr ⟨h1, h2, h3, h5⟩
      simp only at h1 h2 h3 h5
      have hr' : r ≤ j := by omega
      have hrn : r < a.size := by omega
      have e1 : c - (j - r) = c - j + r := by omega
      simp only [basisInner, Arr.rd_ok hrn (h3 r (Nat.le_refl _) hr'), Res.ok_bind,
        Arr.rd_ok (show r < right.size by rw [hlr.rsize]; omega) (hlr.rval r (by omega)),
        Arr.rd_ok (show j - r < left.size by rw [hlr.lsize]; omega) (hlr.lval (j - r) (by omega)),
        Arr.wr_ok hrn, Res.pure_eq, e1]
      refine ⟨_, rfl, by simpa using h1, ?_, ?_, ?_⟩
      · intro i hi
        rw [Arr.set_val]
        split
        · subst i
          congr 1
          rw [triR, if_neg (show r ≠ j + 1 by omega), ← h5]
          rfl
        · exact h2 i (by omega)
      · intro i hi hi'
        rw [Arr.set_val, if_neg (by omega)]
        exact h3 i (by omega) hi'
      · rw [if_neg (by omega)]
        simp only [Nat.add_sub_cancel]
        rfl)
  refine ⟨s, e, h1, fun r hr => h2 r (by omega), ?_⟩
  rw [h5, if_neg (by omega), triR, if_pos rfl]
  simp

theorem triangle {u : NUBS Rat} {p n : Nat} (h : u.Is p n t) {x s0 : Rat} {c : Nat} (hc : p ≤ c) (hc' : c < p + n) (q : Nat)
    (hq : q ≤ p) (a : Arr Rat) (N : Nat) (hN : q < N) (hs : a.size = N) (h0 : a.val 0 = some s0) :
    ∃ s, forLoop (basisOuter fl u (BitVec.ofNat 64 c) x) 0 q ⟨a, Arr.uninit p, Arr.uninit p⟩ = .ok s ∧
      Line s.values N (triR fl (nA fl t x c) (nB fl t x c) (nD fl t x c) s0 q) q := by
  obtain ⟨s, e, h1, _⟩ := forLoop_inv (f := basisOuter fl u (BitVec.ofNat 64 c) x)
    (fun j s => Line s.values N (triR fl (nA fl t x c) (nB fl t x c) (nD fl t x c) s0 j) j ∧
      Sides fl t x c p s.left s.right j) q 0 ⟨a, Arr.uninit p, Arr.uninit p⟩
    ⟨⟨hs, fun r hr => by obtain rfl : r = 0 := by omega
                         exact h0⟩, rfl, rfl, fun i hi => absurd hi (by omega),
      fun i hi => absurd hi (by omega)⟩
    (by
      rintro j ⟨a, left, right⟩ - hj ⟨h1, h2⟩
      simp only at h1 h2
      obtain ⟨s', e', h3, h4, h5⟩ := basisInner_ok (show j < p by omega) hc h2.next N (by omega) a h1
      have k := h.sideKnots hc hc' (show j < p by omega)
      simp only [basisOuter, k.1, k.2, Res.ok_bind,
        Arr.wr_ok (show j < left.size by rw [h2.lsize]; omega),
        Arr.wr_ok (show j < right.size by rw [h2.rsize]; omega), e',
        Arr.wr_ok (show j + 1 < s'.1.size by rw [h3]; omega), Res.pure_eq]
      refine ⟨_, rfl, ⟨by simpa using h3, fun r hr => ?_⟩, h2.next⟩
      rw [Arr.set_val]
      split
      · subst r; rw [h5]
      · exact h4 r (by omega))
  exact ⟨s, e, by simpa using h1⟩

end DDC.Rounded
