import Verif.Lemmas.RoundedNDerivs

/-!
# The triangle stored by `eval_basis_and_n_derivs`, with rounding
-/

namespace DDC

open DDC.One Finset

/-- The triangle with multiplications by the inverses of the denominators. -/
def triM (fl : Rat → Rat) (A B D : Nat → Nat → Rat) (s0 : Rat) : Nat → Nat → Rat
  | 0, _ => s0
  | j + 1, r =>
    let S := if r = 0 then 0 else fl (B j (r - 1) * fl (triM fl A B D s0 j (r - 1) * fl (1 / D j (r - 1))))
    if r = j + 1 then S else fl (S + fl (A j r * fl (triM fl A B D s0 j r * fl (1 / D j r))))

namespace Rounded

variable {fl : Rat → Rat}

/-! ## Uniform B-splines -/

theorem Knots.nduOuter_ok (o s0 : Rat) (j : Nat) (a : Arr2 Rat) (n : Nat) (hn : j + 1 < n)
    (h : Lines a n (triR fl (uA fl o) (uB fl o) uD s0) j) :
    ∃ a', Knots.nduOuter fl o (j + 1) a = .ok a' ∧ Lines a' n (triR fl (uA fl o) (uB fl o) uD s0) (j + 1) := by
  obtain ⟨s, e, h1, h1', h2, h3, h4, h5⟩ := forLoop_inv
    (f := Knots.nduInner fl (j + 1))
    (fun r (s : Arr2 Rat × Rat × Rat) => s.1.rows = n ∧ s.1.cols = n ∧
      (∀ i : Nat, i < r → s.1.val (j + 1 : Nat) i = some (triR fl (uA fl o) (uB fl o) uD s0 (j + 1) i)) ∧
      (∀ i r : Nat, i ≤ j → r ≤ i → s.1.val i r = some (triR fl (uA fl o) (uB fl o) uD s0 i r)) ∧
      s.2.1 = xxR fl o r ∧
      s.2.2 = if r = 0 then 0 else
        fl (uB fl o j (r - 1) * fl (triR fl (uA fl o) (uB fl o) uD s0 j (r - 1) / uD j (r - 1))))
    (j + 1) 0 (a, -o, 0) ⟨h.rows, h.cols, fun i hi => absurd hi (by omega), h.val, rfl, by simp⟩
    (by
      rintro r ⟨a, xx, sv⟩ - hr ⟨h1, h1', h2, h3, h4, h5⟩
      simp only at h1 h1' h2 h3 h4 h5
      have hr' : r ≤ j := by omega
      have cj : ((j + 1 : Nat) : Int) - 1 = (j : Int) := by omega
      simp only [Knots.nduInner]
      rw [cj, Arr2.rd_ok ⟨by omega, by omega, by omega, by omega⟩ (h3 j r (le_refl _) hr'), Res.ok_bind,
        Arr2.wr_ok ⟨by omega, by omega, by omega, by omega⟩, Res.ok_bind]
      refine ⟨_, rfl, h1, h1', ?_, ?_, ?_, ?_⟩
      · intro i hi
        rw [Arr2.set_val]
        by_cases hir : i = r
        · subst i
          rw [if_pos ⟨rfl, rfl⟩]
          congr 1
          rw [triR, if_neg (show r ≠ j + 1 by omega), ← h5, h4]
          rfl
        · rw [if_neg (fun e => hir (by exact_mod_cast e.2))]; exact h2 i (by omega)
      · intro i l hi hl
        rw [Arr2.set_val, if_neg (fun e => by have := e.1; omega)]
        exact h3 i l hi hl
      · rw [h4]; rfl
      · rw [if_neg (by omega), h4]
        simp only [Nat.add_sub_cancel]
        rfl)
  simp only [Knots.nduOuter, e, Res.ok_bind]
  rw [Arr2.wr_ok ⟨by omega, by omega, by omega, by omega⟩]
  refine ⟨_, rfl, h1, h1', fun i r hi hr => ?_⟩
  rw [Arr2.set_val]
  by_cases hij : (i : Int) = (j + 1 : Nat) ∧ (r : Int) = (j + 1 : Nat)
  · rw [if_pos hij]
    obtain ⟨rfl, rfl⟩ : i = j + 1 ∧ r = j + 1 := by omega
    congr 1
    rw [triR, if_pos rfl, h5]
    simp
  · rw [if_neg hij]
    rcases Nat.lt_or_eq_of_le hi with h | rfl
    · exact h3 i r (by omega) hr
    · exact h2 r (by omega)

theorem Knots.ndu_ok (o : Rat) (p : Nat) :
    ∃ a, (do let ndu ← (Arr2.uninit (p + 1) (p + 1)).wr 0 0 1
             forLoop (Knots.nduOuter fl o) 1 p ndu) = .ok a ∧
      Lines a (p + 1) (triR fl (uA fl o) (uB fl o) uD 1) p := by
  rw [Arr2.wr_ok ⟨le_refl _, by simp [Arr2.uninit], le_refl _, by simp [Arr2.uninit]⟩,
    Res.ok_bind]
  obtain ⟨a, e, h⟩ := forLoop_inv (f := Knots.nduOuter fl o)
    (fun j a => Lines a (p + 1) (triR fl (uA fl o) (uB fl o) uD 1) (j - 1)) p 1
    ((Arr2.uninit (p + 1) (p + 1) : Arr2 Rat).set 0 0 1)
    ⟨rfl, rfl, fun i r hi hr => by
      obtain ⟨rfl, rfl⟩ : i = 0 ∧ r = 0 := by omega
      rw [Arr2.set_val, if_pos ⟨rfl, rfl⟩]; simp [triR]⟩
    (fun j a hj hj' h => by
      obtain ⟨j, rfl⟩ : ∃ k, j = k + 1 := ⟨j - 1, by omega⟩
      simp only [Nat.add_sub_cancel] at h ⊢
      exact Knots.nduOuter_ok o 1 j a (p + 1) (by omega) h)
  refine ⟨a, e, ?_⟩
  simpa using h

/-! ## Non-uniform B-splines -/

variable {u : NUBS Rat} {p n : Nat} {t : Nat → Rat}

/-- The upper part of `ndu`: the inverses of the denominators. -/
def Inv (fl : Rat → Rat) (t : Nat → Rat) (x : Rat) (c : Nat) (a : Arr2 Rat) (j : Nat) : Prop :=
  ∀ i r : Nat, i < j → r ≤ i → a.val r (i + 1 : Nat) = some (fl (1 / nD fl t x c i r))

/-- The triangle of the non-uniform scheme. -/
abbrev triN (fl : Rat → Rat) (t : Nat → Rat) (x : Rat) (c : Nat) : Nat → Nat → Rat :=
  triM fl (nA fl t x c) (nB fl t x c) (nD fl t x c) 1

theorem nduInner_ok {x : Rat} {c p : Nat} {left right : Arr Rat} {j : Nat} (hj : j < p) (hc : p ≤ c)
    (hlr : Sides fl t x c p left right (j + 1)) (a : Arr2 Rat)
    (h : Lines a (p + 1) (triN fl t x c) j) (hi : Inv fl t x c a j) :
    ∃ s, forLoop (nduInner fl left right j) 0 (j + 1) (a, 0) = .ok s ∧
      Lines s.1 (p + 1) (triN fl t x c) j ∧
      (∀ r : Nat, r ≤ j → s.1.val (j + 1 : Nat) r = some (triN fl t x c (j + 1) r)) ∧
      Inv fl t x c s.1 (j + 1) ∧
      s.2 = triN fl t x c (j + 1) (j + 1) := by
  obtain ⟨s, e, h1, h2, h3, h4, h5⟩ := forLoop_inv
    (f := nduInner fl left right j)
    (fun r (s : Arr2 Rat × Rat) => Lines s.1 (p + 1) (triN fl t x c) j ∧
      (∀ i : Nat, i < r → s.1.val (j + 1 : Nat) i = some (triN fl t x c (j + 1) i)) ∧
      Inv fl t x c s.1 j ∧
      (∀ i : Nat, i < r → s.1.val i (j + 1 : Nat) = some (fl (1 / nD fl t x c j i))) ∧
      s.2 = if r = 0 then 0 else fl (nB fl t x c j (r - 1) * fl (triN fl t x c j (r - 1) * fl (1 / nD fl t x c j (r - 1)))))
    (j + 1) 0 (a, 0) ⟨h, fun i hi => absurd hi (by omega), hi, fun i hi => absurd hi (by omega), by simp⟩
    (by
      rintro r ⟨a, sv⟩ - hr ⟨h1, h2, h3, h4, h5⟩
      simp only at h1 h2 h3 h4 h5
      have hr' : r ≤ j := by omega
      have e1 : c - (j - r) = c - j + r := by omega
      have hrows := h1.rows
      have hcols := h1.cols
      have cj : (j : Int) + 1 = ((j + 1 : Nat) : Int) := by omega
      simp only [nduInner]
      rw [Arr.rd_ok (show r < right.size by rw [hlr.rsize]; omega) (hlr.rval r (by omega)), Res.ok_bind,
        Arr.rd_ok (show j - r < left.size by rw [hlr.lsize]; omega) (hlr.lval (j - r) (by omega)),
        Res.ok_bind, e1, cj, Arr2.wr_ok ⟨by omega, by omega, by omega, by omega⟩, Res.ok_bind,
        Arr2.rd_ok ⟨by omega, by simp only [Arr2.set_rows]; omega, by omega,
          by simp only [Arr2.set_cols]; omega⟩
          (by rw [Arr2.set_val, if_neg (fun e => by have := e.2; omega)]; exact h1.val j r (le_refl _) hr'),
        Res.ok_bind,
        Arr2.rd_ok ⟨by omega, by simp only [Arr2.set_rows]; omega, by omega,
          by simp only [Arr2.set_cols]; omega⟩
          (by rw [Arr2.set_val, if_pos ⟨rfl, rfl⟩]), Res.ok_bind,
        Arr2.wr_ok ⟨by omega, by simp only [Arr2.set_rows]; omega, by omega,
          by simp only [Arr2.set_cols]; omega⟩, Res.ok_bind]
      refine ⟨_, rfl, ⟨hrows, hcols, fun i l hi hl => ?_⟩, fun i hi => ?_, fun i l hi hl => ?_,
        fun i hi => ?_, ?_⟩
      · rw [Arr2.set_val, if_neg (fun e => by have := e.1; omega), Arr2.set_val,
          if_neg (fun e => by have := e.2; omega)]
        exact h1.val i l hi hl
      · rw [Arr2.set_val]
        by_cases hir : i = r
        · subst i
          rw [if_pos ⟨rfl, rfl⟩]
          congr 1
          rw [triN, triM, if_neg (show r ≠ j + 1 by omega), ← h5]
          rfl
        · rw [if_neg (fun e => hir (by exact_mod_cast e.2)), Arr2.set_val,
            if_neg (fun e => by have := e.1; omega)]
          exact h2 i (by omega)
      · rw [Arr2.set_val, if_neg (fun e => by have := e.1; omega), Arr2.set_val,
          if_neg (fun e => by have := e.2; omega)]
        exact h3 i l hi hl
      · rw [Arr2.set_val, if_neg (fun e => by have := e.1; omega), Arr2.set_val]
        by_cases hir : i = r
        · subst i; rw [if_pos ⟨rfl, rfl⟩]; rfl
        · rw [if_neg (fun e => hir (by exact_mod_cast e.1))]; exact h4 i (by omega)
      · rw [if_neg (by omega)]
        simp only [Nat.add_sub_cancel]
        rfl)
  refine ⟨s, e, h1, fun r hr => h2 r (by omega), fun i r hi hr => ?_, ?_⟩
  · rcases Nat.lt_or_ge i j with hij | hij
    · exact h3 i r hij hr
    · obtain rfl : i = j := by omega
      exact h4 r (by omega)
  · rw [h5, if_neg (by omega), triN, triM, if_pos rfl]
    simp

theorem ndu_ok (h : u.Is p n t) {x : Rat} {c : Nat} (hc : p ≤ c) (hc' : c < p + n) :
    ∃ s, (do let ndu ← (Arr2.uninit (p + 1) (p + 1)).wr 0 0 1
             forLoop (nduOuter fl u (BitVec.ofNat 64 c) x) 0 p ⟨ndu, Arr.uninit p, Arr.uninit p⟩) = .ok s ∧
      Lines s.ndu (p + 1) (triN fl t x c) p ∧ Inv fl t x c s.ndu p := by
  rw [Arr2.wr_ok ⟨le_refl _, by simp [Arr2.uninit], le_refl _, by simp [Arr2.uninit]⟩,
    Res.ok_bind]
  obtain ⟨s, e, h1, h2, _⟩ := forLoop_inv (f := nduOuter fl u (BitVec.ofNat 64 c) x)
    (fun j s => Lines s.ndu (p + 1) (triN fl t x c) j ∧ Inv fl t x c s.ndu j ∧
      Sides fl t x c p s.left s.right j) p 0
    ⟨(Arr2.uninit (p + 1) (p + 1) : Arr2 Rat).set 0 0 1, Arr.uninit p, Arr.uninit p⟩
    ⟨⟨rfl, rfl, fun i r hi hr => by
      obtain ⟨rfl, rfl⟩ : i = 0 ∧ r = 0 := by omega
      rw [Arr2.set_val, if_pos ⟨rfl, rfl⟩]; simp [triN, triM]⟩, fun i r hi => absurd hi (by omega), rfl, rfl,
      fun i hi => absurd hi (by omega), fun i hi => absurd hi (by omega)⟩
    (by
      rintro j ⟨a, left, right⟩ - hj ⟨h1, h2, h3⟩
      simp only at h1 h2 h3
      obtain ⟨s', e', g1, g2, g3, g4⟩ := nduInner_ok (show j < p by omega) hc h3.next a h1 h2
      have k := h.sideKnots hc hc' (show j < p by omega)
      have hrows := g1.rows
      have hcols := g1.cols
      simp only [nduOuter, k.1, k.2, Res.ok_bind,
        Arr.wr_ok (show j < left.size by rw [h3.lsize]; omega),
        Arr.wr_ok (show j < right.size by rw [h3.rsize]; omega), e']
      rw [Arr2.wr_ok ⟨by omega, by omega, by omega, by omega⟩, Res.ok_bind]
      refine ⟨_, rfl, ⟨g1.rows, g1.cols, fun i r hi hr => ?_⟩, fun i r hi hr => ?_, h3.next⟩
      · rw [Arr2.set_val]
        by_cases hij : (i : Int) = (j : Int) + 1 ∧ (r : Int) = (j : Int) + 1
        · rw [if_pos hij]
          obtain ⟨rfl, rfl⟩ : i = j + 1 ∧ r = j + 1 := by omega
          rw [g4]
        · rw [if_neg hij]
          rcases Nat.lt_or_eq_of_le hi with h | rfl
          · exact g1.val i r (by omega) hr
          · exact g2 r (by omega)
      · rw [Arr2.set_val, if_neg (fun e => by have := e.1; have := e.2; omega)]
        exact g3 i r hi hr)
  rw [Nat.zero_add] at h1 h2
  exact ⟨s, e, h1, h2⟩

/-- The denominators. -/
theorem nD_near (hfl : Spec.RoundsAll fl) (ht : Monotone t) {x : Rat} {c : Nat} (hx1 : t c ≤ x) (hx2 : x ≤ t (c + 1))
    (hc : t c < t (c + 1)) {j r : Nat} (hj : j ≤ c) (hr : r ≤ j) :
    Near 5 (fl (1 / nD fl t x c j r)) (1 / (t (c + r + 1) - t (c - j + r))) ∧
      0 ≤ t (c + r + 1) - x ∧ 0 ≤ x - t (c - j + r) ∧ Near 1 (nA fl t x c j r) (t (c + r + 1) - x) ∧
      Near 1 (nB fl t x c j r) (x - t (c - j + r)) := by
  have k1 : 0 ≤ t (c + r + 1) - x := by have := ht (show c + 1 ≤ c + r + 1 by omega); linarith
  have k2 : 0 ≤ x - t (c - j + r) := by have := ht (show c - j + r ≤ c by omega); linarith
  have k3 : 0 < t (c + r + 1) - t (c - j + r) := by
    have := ht (show c + 1 ≤ c + r + 1 by omega)
    have := ht (show c - j + r ≤ c by omega)
    linarith
  have a : Near 1 (nA fl t x c j r) (t (c + r + 1) - x) := (Near.refl _).fl hfl
  have b : Near 1 (nB fl t x c j r) (x - t (c - j + r)) := (Near.refl _).fl hfl
  refine ⟨?_, k1, k2, a, b⟩
  have e : t (c + r + 1) - t (c - j + r) = (t (c + r + 1) - x) + (x - t (c - j + r)) := by ring
  have d : Near 2 (nD fl t x c j r) (t (c + r + 1) - t (c - j + r)) := by
    rw [e]
    exact (a.add b (by rw [abs_of_nonneg k1, abs_of_nonneg k2, abs_of_nonneg (add_nonneg k1 k2)])).fl hfl
  exact (d.inv (by norm_num) k3).fl hfl

/-- The triangle is accurate. -/
theorem triN_near (hfl : Spec.RoundsAll fl) (ht : Monotone t) {x : Rat} {c : Nat} (hx1 : t c ≤ x) (hx2 : x ≤ t (c + 1))
    (hc : t c < t (c + 1)) (j r : Nat) (hj : j ≤ c) (hr : r ≤ j) :
    Near (9 * j) (triN fl t x c j r) (tri (NUBS.nL t x c) (NUBS.nR t x c) 1 j r) ∧
      0 ≤ tri (NUBS.nL t x c) (NUBS.nR t x c) 1 j r := by
  induction j generalizing r with
  | zero => exact ⟨Near.refl _, by simp [tri]⟩
  | succ j ih =>
    have key : ∀ r, r ≤ j →
        Near (9 * j + 8) (fl (nA fl t x c j r * fl (triN fl t x c j r * fl (1 / nD fl t x c j r))))
          (NUBS.nR t x c j r * tri (NUBS.nL t x c) (NUBS.nR t x c) 1 j r) ∧
        0 ≤ NUBS.nR t x c j r * tri (NUBS.nL t x c) (NUBS.nR t x c) 1 j r ∧
        Near (9 * j + 8) (fl (nB fl t x c j r * fl (triN fl t x c j r * fl (1 / nD fl t x c j r))))
          (NUBS.nL t x c j r * tri (NUBS.nL t x c) (NUBS.nR t x c) 1 j r) ∧
        0 ≤ NUBS.nL t x c j r * tri (NUBS.nL t x c) (NUBS.nR t x c) 1 j r := by
      intro r hr
      obtain ⟨i1, i2⟩ := ih r (by omega) hr
      obtain ⟨d, k1, k2, a, b⟩ := nD_near hfl ht hx1 hx2 hc (show j ≤ c by omega) hr
      have d0 : 0 ≤ t (c + r + 1) - t (c - j + r) := by linarith
      have q := (i1.mul d).fl hfl
      have eR : NUBS.nR t x c j r * tri (NUBS.nL t x c) (NUBS.nR t x c) 1 j r = (t (c + r + 1) - x) *
          (tri (NUBS.nL t x c) (NUBS.nR t x c) 1 j r * (1 / (t (c + r + 1) - t (c - j + r)))) := by rw [NUBS.nR]; ring
      have eL : NUBS.nL t x c j r * tri (NUBS.nL t x c) (NUBS.nR t x c) 1 j r = (x - t (c - j + r)) *
          (tri (NUBS.nL t x c) (NUBS.nR t x c) 1 j r * (1 / (t (c + r + 1) - t (c - j + r)))) := by rw [NUBS.nL]; ring
      have q0 : 0 ≤ tri (NUBS.nL t x c) (NUBS.nR t x c) 1 j r * (1 / (t (c + r + 1) - t (c - j + r))) :=
        mul_nonneg i2 (div_nonneg zero_le_one d0)
      rw [eR, eL]
      exact ⟨((a.mul q).fl hfl).mono (by omega), mul_nonneg k1 q0, ((b.mul q).fl hfl).mono (by omega), mul_nonneg k2 q0⟩
    rw [triN, triM, tri]
    have hS : Near (9 * j + 8) (if r = 0 then 0 else fl (nB fl t x c j (r - 1) * fl (triN fl t x c j (r - 1) *
        fl (1 / nD fl t x c j (r - 1))))) (if r = 0 then 0 else NUBS.nL t x c j (r - 1) *
          tri (NUBS.nL t x c) (NUBS.nR t x c) 1 j (r - 1)) ∧
        0 ≤ if r = 0 then 0 else NUBS.nL t x c j (r - 1) * tri (NUBS.nL t x c) (NUBS.nR t x c) 1 j (r - 1) := by
      by_cases h : r = 0
      · rw [if_pos h, if_pos h]; exact ⟨(Near.refl 0).mono (by omega), le_refl _⟩
      · rw [if_neg h, if_neg h]
        obtain ⟨-, -, k3, k4⟩ := key (r - 1) (by omega)
        exact ⟨k3, k4⟩
    by_cases h : r = j + 1
    · simp only [if_pos h, add_zero]
      exact ⟨hS.1.mono (by omega), hS.2⟩
    · simp only [if_neg h]
      obtain ⟨k1, k2, -, -⟩ := key r (by omega)
      refine ⟨((hS.1.add k1 ?_).fl hfl).mono (by omega), add_nonneg hS.2 k2⟩
      rw [abs_of_nonneg hS.2, abs_of_nonneg k2, abs_of_nonneg (add_nonneg hS.2 k2)]

end Rounded

namespace NDerR

variable {fl : Rat → Rat} {op : Rat → Rat → Rat}

/-- The data of the loops. -/
theorem data_of {wt : Int → Int → Res Rat} {p : Nat} {ndu : Arr2 Rat} {T : Nat → Nat → Rat} (hl : Lines ndu (p + 1) T p)
    {w : Nat → Nat → Rat} (r : Nat)
    (hw : ∀ k j, 1 ≤ k → k ≤ p → NDer.Need p r k j → ∃ q, wt ((p : Int) - k) ((r : Int) - k + j) = .ok q ∧
      ∀ m v y, Near m v y → Near (m + 6) (op v q) (y * w k j)) (hpos : ∀ k j, 0 ≤ w k j) :
    Data op wt p ndu r (fun k j => if k ≤ r + j ∧ r + j ≤ p then T (p - k) (r + j - k) else 0) w where
  rows := hl.rows
  cols := hl.cols
  entry k j hk hn := by
    obtain ⟨h1, h2, h3⟩ := hn
    have e1 : (p : Int) - k = ((p - k : Nat) : Int) := by omega
    have e2 : (r : Int) - k + j = ((r + j - k : Nat) : Int) := by omega
    rw [e1, e2, hl.val _ _ (by omega) (by omega), if_pos ⟨h1, h3⟩]
  zero k j hk hj hn := by
    rw [if_neg]
    rintro ⟨h1, h2⟩
    exact hn ⟨h1, hj, h2⟩
  weight := hw
  pos := hpos

/-- The combination with entries that are accurate. -/
theorem Sums.near {w P : Nat → Nat → Rat} {k : Nat} {d : Rat} (h : Sums w P k d) {E : Nat → Rat} {M : Nat}
    (hE : ∀ j, j ≤ k → Near M (P k j) (E j)) :
    |d - ∑ j ∈ range (k + 1), Spec.dcoef w k j * E j| ≤ (up (8 * k + 2 + M) - 1) * ∑ j ∈ range (k + 1), |Spec.dcoef w k j * E j| := by
  have h1 : ∑ j ∈ range (k + 1), |Spec.dcoef w k j * P k j| ≤ up M * ∑ j ∈ range (k + 1), |Spec.dcoef w k j * E j| := by
    rw [mul_sum]
    refine sum_le_sum fun j hj => ?_
    rw [abs_mul, abs_mul]
    have := mul_le_mul_of_nonneg_left (hE j (by have := mem_range.1 hj; omega)).abs_le (abs_nonneg (Spec.dcoef w k j))
    linarith
  have h2 : |∑ j ∈ range (k + 1), Spec.dcoef w k j * P k j - ∑ j ∈ range (k + 1), Spec.dcoef w k j * E j| ≤
      (up M - 1) * ∑ j ∈ range (k + 1), |Spec.dcoef w k j * E j| := by
    rw [← sum_sub_distrib, mul_sum]
    refine (abs_sum_le_sum_abs _ _).trans (sum_le_sum fun j hj => ?_)
    rw [← mul_sub, abs_mul, abs_mul]
    have := mul_le_mul_of_nonneg_left (hE j (by have := mem_range.1 hj; omega)) (abs_nonneg (Spec.dcoef w k j))
    linarith
  have h3 := mul_le_mul_of_nonneg_left h1 (show 0 ≤ up (8 * k + 2) - 1 by linarith [one_le_up (8 * k + 2)])
  have h4 : |d - _| ≤ _ := h
  have h5 := abs_sub_le d (∑ j ∈ range (k + 1), Spec.dcoef w k j * P k j) (∑ j ∈ range (k + 1), Spec.dcoef w k j * E j)
  rw [up_add]
  linarith

end NDerR

/-- One more rounding of a value compared with a bound. -/
theorem fl_step {fl : Rat → Rat} (hfl : Spec.RoundsAll fl) {m : Nat} {x y T : Rat} (hy : |y| ≤ T)
    (h : |x - y| ≤ (up m - 1) * T) : |fl x - y| ≤ (up (m + 1) - 1) * T := by
  have e : up (m + 1) = up m * (1 + 1 / 2 ^ 53) := pow_succ _ _
  have k1 := hfl.error x
  have k3 : |x| ≤ up m * T := by
    have := abs_sub_abs_le_abs_sub x y
    linarith
  have k4 : |x| / 2 ^ 53 ≤ up m * T / 2 ^ 53 := by gcongr
  have k5 := abs_sub_le (fl x) x y
  rw [e]
  calc |fl x - y| ≤ up m * T / 2 ^ 53 + (up m - 1) * T := by linarith
    _ = _ := by ring

/-- A product with an accurate factor. -/
theorem mul_step {m n : Nat} {d S T F G : Rat} (hS : |S| ≤ T) (h : |d - S| ≤ (up m - 1) * T) (hF : Near n F G) :
    |S * G| ≤ T * |G| ∧ |d * F - S * G| ≤ (up (m + n) - 1) * (T * |G|) := by
  have a := hF.abs_le
  have T0 : 0 ≤ T := (abs_nonneg _).trans hS
  have e : d * F - S * G = (d - S) * F + S * (F - G) := by ring
  constructor
  · rw [abs_mul]; exact mul_le_mul_of_nonneg_right hS (abs_nonneg _)
  · rw [e, up_add]
    refine (abs_add_le _ _).trans ?_
    rw [abs_mul, abs_mul]
    have m0 : 0 ≤ (up m - 1) * T := mul_nonneg (by linarith [one_le_up m]) T0
    have k1 := mul_le_mul h a (abs_nonneg _) m0
    have k2 := mul_le_mul hS hF (abs_nonneg _) T0
    calc |d - S| * |F| + |S| * |F - G| ≤ (up m - 1) * T * (up n * |G|) + T * ((up n - 1) * |G|) := add_le_add k1 k2
      _ = _ := by ring

end DDC
