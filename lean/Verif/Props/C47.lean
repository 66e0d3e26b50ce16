import Verif.Props.C41b

/-!
# C47: the validation of the interpolation grid

A cell between two consecutive break points, both ends included, is overfull when it holds more points than a
polynomial of the degree of the splines can interpolate: `degree + 1`.

* `C47_accepts`: a grid with the expected number of points and without overfull cell is accepted.
* `C47_wrong_count`: a grid with another number of points is rejected.
* `C47_rejects_partial`: a grid with an overfull cell is rejected, when no cell `[t k, t (k + 1))` is without
  points.  Missing because false: `C47_skipped_cells`, `C47_missed_end` are overfull grids that are accepted,
  since `check_valid_grid` moves to the next cell only once per point; `C47_accepted_singular` shows that the
  interpolation problem of the last one has no solution for some data.
* `C47_constructor`: the constructor throws when the validation does.
-/

set_option linter.unusedSectionVars false

namespace DDC.Props

open One Dom LinProb Spec Builder

variable {K : Type} [Field K] [LinearOrder K] [IsStrictOrderedRing K] [FloorRing K]

variable {bs : BSpl K} {per : Bool} {p n : Nat} {t : Nat → K}

/-- The number of points in the closed cell number `k`. -/
def cellCount (t : Nat → K) (p N : Nat) (X : Nat → K) (k : Nat) : Nat :=
  ((Finset.range N).filter fun i => t (p + k) ≤ X i ∧ X i ≤ t (p + k + 1)).card

/-- Some cell holds more points than a polynomial of degree `p` can interpolate. -/
def Overfull (t : Nat → K) (p n N : Nat) (X : Nat → K) : Prop := ∃ k, k < n ∧ p + 1 < cellCount t p N X k

theorem cellCount_ge {N : Nat} {X : Nat → K} {k a b : Nat} (hb : b ≤ N)
    (h : ∀ j, a ≤ j → j < b → t (p + k) ≤ X j ∧ X j ≤ t (p + k + 1)) : b - a ≤ cellCount t p N X k := by
  rw [← Nat.card_Ico]
  refine Finset.card_le_card fun j hj => ?_
  rw [Finset.mem_Ico] at hj
  rw [Finset.mem_filter, Finset.mem_range]
  exact ⟨by omega, h j hj.1 hj.2⟩

theorem cellCount_le {N : Nat} {X : Nat → K} {k a b : Nat}
    (h : ∀ j, j < N → t (p + k) ≤ X j → X j ≤ t (p + k + 1) → a ≤ j ∧ j < b) : cellCount t p N X k ≤ b - a := by
  rw [← Nat.card_Ico]
  refine Finset.card_le_card fun j hj => ?_
  rw [Finset.mem_filter, Finset.mem_range] at hj
  rw [Finset.mem_Ico]
  exact h j hj.1 hj.2.1 hj.2.2

/-- A loop whose body may throw. -/
theorem forLoop_throw {σ : Type} {f : Nat → σ → Res σ} (P : Nat → σ → Prop) (Q : Prop) (n lo : Nat) (s : σ)
    (h0 : P lo s)
    (h : ∀ i s, lo ≤ i → i < lo + n → P i s → (∃ s', f i s = .ok s' ∧ P (i + 1) s') ∨ (f i s = .throw ∧ Q)) :
    (∃ s', forLoop f lo n s = .ok s' ∧ P (lo + n) s') ∨ (forLoop f lo n s = .throw ∧ Q) := by
  induction n generalizing lo s with
  | zero => exact .inl ⟨s, rfl, h0⟩
  | succ n ih =>
    rcases h lo s (Nat.le_refl _) (by omega) h0 with ⟨s1, e1, h1⟩ | ⟨e1, hq⟩
    · rcases ih (lo + 1) s1 h1 (fun i s hi hi' => h i s (by omega) (by omega)) with ⟨s2, e2, h2⟩ | ⟨e2, hq⟩
      · refine .inl ⟨s2, ?_, by rwa [show lo + (n + 1) = lo + 1 + n by omega]⟩
        rw [forLoop, e1, Res.ok_bind, e2]
      · exact .inr ⟨by rw [forLoop, e1, Res.ok_bind, e2], hq⟩
    · exact .inr ⟨by rw [forLoop, e1]; rfl, hq⟩

/-- The points increase. -/
def PointsIncrease (N : Nat) (X : Nat → K) : Prop := ∀ i j, i < j → j < N → X i < X j

theorem PointsIncrease.le {N : Nat} {X : Nat → K} (h : PointsIncrease N X) {i j : Nat} (hij : i ≤ j) (hj : j < N) :
    X i ≤ X j := by
  rcases Nat.eq_or_lt_of_le hij with rfl | hij
  · exact le_refl _
  · exact (h i j hij hj).le

theorem checkPointsInCell_cases (p c : Nat) : (checkPointsInCell p c = .ok () ∧ c ≤ p + 1) ∨
    (checkPointsInCell p c = .throw ∧ p + 1 < c) := by
  rw [checkPointsInCell]
  by_cases hc : p + 1 < c
  · exact .inr ⟨if_pos hc, hc⟩
  · exact .inl ⟨if_neg hc, by omega⟩

/-- The body of the loop. -/
theorem gridStep_eq (h : bs.Is per p n t) {s N : Nat} {coord : Elem Unit → Res K} {X : Nat → K}
    (hX : PointsIn t p n s N coord X) {i k c : Nat} (hi : i < N) (hk : k ≤ n) :
    gridStep bs coord (el () (s + i)) (c, el () (p + k + 1)) =
      if t (p + k + 1) < X i then checkPointsInCell p c >>= fun _ => .ok (1, el () (p + (k + 1) + 1))
      else if X i = t (p + k + 1) then checkPointsInCell p (c + 1) >>= fun _ => .ok (1, el () (p + (k + 1) + 1))
      else .ok (c + 1, el () (p + k + 1)) := by
  have hp := h.pos
  rw [gridStep, hX.coord i hi, Res.ok_bind, h.knot _ (by omega), Res.ok_bind, h.degree]
  dsimp only
  rw [show (1 : U64) = BitVec.ofNat 64 1 from rfl, One.addInt_el, show p + k + 1 + 1 = p + (k + 1) + 1 by omega]
  rfl

theorem checkValidGrid_eq (h : bs.Is per p n t) (lower upper : Closure) {s N : Nat} {coord : Elem Unit → Res K}
    {X : Nat → K} (hX : PointsIn t p n s N coord X) {nb : Nat} (hnb : nb = if per then n else n + p)
    (hN : lower.equations p + N + upper.equations p = nb) :
    checkValidGrid bs lower upper (seg () s (s + N)) coord =
      forLoop (fun i => gridStep bs coord (el () (s + i))) 0 N (0, el () (p + 0 + 1)) >>= fun r =>
        checkPointsInCell p r.1 := by
  have hs := h.small
  have hxs := hX.small
  have hb : nb ≤ n + p := by rw [hnb]; split_ifs <;> omega
  rw [checkValidGrid, seg_size (by omega), Res.ok_bind, h.nbasis, Res.ok_bind, h.degree, ← hnb,
    ofNat_sub (by omega), ofNat_sub (by omega), if_neg (by rw [not_not]; congr 1; omega), h.breakDom, One.front,
    show (1 : U64) = BitVec.ofNat 64 1 from rfl, One.addInt_el, Res.ok_bind, hostForEach1_seg (by omega) (by omega),
    Nat.add_sub_cancel_left]

/-- A grid with another number of points is rejected. -/
theorem C47_wrong_count (h : bs.Is per p n t) (lower upper : Closure) {s N : Nat} {coord : Elem Unit → Res K}
    {X : Nat → K} (hX : PointsIn t p n s N coord X)
    (hN : lower.equations p + N + upper.equations p ≠ if per then n else n + p) :
    checkValidGrid bs lower upper (seg () s (s + N)) coord = .throw := by
  have hs := h.small
  have hxs := hX.small
  have h1 : lower.equations p ≤ p := by cases lower <;> simp [Closure.equations] <;> omega
  have h2 : upper.equations p ≤ p := by cases upper <;> simp [Closure.equations] <;> omega
  rw [checkValidGrid, seg_size (by omega), Res.ok_bind, h.nbasis, Res.ok_bind, h.degree]
  have hb : (if per then n else n + p) < 2 ^ 31 := by split_ifs <;> omega
  generalize (if per then n else n + p) = nb at *
  rw [if_pos]
  intro e
  apply hN
  rw [Nat.add_sub_cancel_left] at e
  have e' : BitVec.ofNat 64 (N + upper.equations p + lower.equations p) = BitVec.ofNat 64 nb := by
    rw [BitVec.ofNat_add, BitVec.ofNat_add, e, BitVec.sub_add_cancel, BitVec.sub_add_cancel]
  have := congrArg BitVec.toNat e'
  rw [BitVec.toNat_ofNat, BitVec.toNat_ofNat] at this
  omega

/-- A grid without overfull cell is accepted. -/
theorem C47_accepts (h : bs.Is per p n t) (lower upper : Closure) {s N : Nat} {coord : Elem Unit → Res K}
    {X : Nat → K} (hX : PointsIn t p n s N coord X) (hinc : PointsIncrease N X)
    (hN : lower.equations p + N + upper.equations p = if per then n else n + p)
    (hfull : ¬ Overfull t p n N X) :
    checkValidGrid bs lower upper (seg () s (s + N)) coord = .ok () := by
  have hp := h.pos
  have hn := h.cells
  rw [checkValidGrid_eq h lower upper hX rfl hN]
  have over : ∀ c k i, c ≤ i → i ≤ N → (0 < c → t (p + k) ≤ X (i - c)) → (2 ≤ c → X (i - 1) ≤ t (p + k + 1)) → k ≤ n →
      p + 1 < c → False := by
    intro c k i hci hi h1 h2 hk hc
    have hkn : k < n := by
      rcases Nat.eq_or_lt_of_le hk with rfl | hk
      · have a1 := h1 (by omega)
        have a2 := hinc (i - c) (i - 1) (by omega) (by omega)
        have a3 := hX.le (i - 1) (by omega)
        exact absurd (lt_of_le_of_lt a1 a2) (not_lt.2 a3)
      · exact hk
    refine hfull ⟨k, hkn, ?_⟩
    have := cellCount_ge (t := t) (p := p) (X := X) (k := k) (a := i - c) (b := i) hi (fun j ha hb =>
      ⟨(h1 (by omega)).trans (hinc.le ha (by omega)), (hinc.le (show j ≤ i - 1 by omega) (by omega)).trans (h2 (by omega))⟩)
    omega
  rcases forLoop_throw (f := fun i => gridStep bs coord (el () (s + i))) (fun i r => ∃ c k, r = (c, el () (p + k + 1)) ∧
      c ≤ i ∧ k ≤ n ∧ (0 < c → t (p + k) ≤ X (i - c)) ∧ (2 ≤ c → X (i - 1) < t (p + k + 1)) ∧
      (k = n → 0 < i ∧ t (p + n) ≤ X (i - 1)) ∧ (c = 0 → k = 0))
    False N 0 (0, el () (p + 0 + 1)) ⟨0, 0, rfl, le_refl _, by omega, fun h => by omega, fun h => by omega, fun h => by omega,
      fun _ => rfl⟩
    (by
      rintro i _ - hi ⟨c, k, rfl, hc, hk, h1, h2, h3, h0⟩
      rw [gridStep_eq h hX (by omega) hk]
      have hkn : k < n := by
        rcases Nat.eq_or_lt_of_le hk with rfl | hk
        · obtain ⟨g1, g2⟩ := h3 rfl
          have a2 := hinc (i - 1) i (by omega) (by omega)
          have a3 := hX.le i (by omega)
          exact absurd (lt_of_le_of_lt g2 a2) (not_lt.2 a3)
        · exact hk
      split_ifs with c1 c2
      · rcases checkPointsInCell_cases p c with ⟨e, hc'⟩ | ⟨e, hc'⟩
        · rw [e, Res.ok_bind]
          refine .inl ⟨_, rfl, 1, k + 1, rfl, by omega, by omega, fun _ => ?_, fun h => by omega, fun hk' => ?_, by omega⟩
          · rw [Nat.add_sub_cancel]; exact c1.le
          · refine ⟨by omega, ?_⟩
            rw [Nat.add_sub_cancel, ← hk']; exact c1.le
        · exact absurd hc' fun hc' => over c k i hc (by omega) h1 (fun h => (h2 h).le) hk hc'
      · rcases checkPointsInCell_cases p (c + 1) with ⟨e, hc'⟩ | ⟨e, hc'⟩
        · rw [e, Res.ok_bind]
          refine .inl ⟨_, rfl, 1, k + 1, rfl, by omega, by omega, fun _ => ?_, fun h => by omega, fun hk' => ?_, by omega⟩
          · rw [Nat.add_sub_cancel]; exact c2.ge
          · refine ⟨by omega, ?_⟩
            rw [Nat.add_sub_cancel, ← hk']; exact c2.ge
        · refine absurd hc' fun hc' => over (c + 1) k (i + 1) (by omega) (by omega) (fun _ => ?_) (fun _ => ?_) hk hc'
          · rw [Nat.add_sub_add_right]; exact h1 (by omega)
          · rw [Nat.add_sub_cancel]; exact c2.le
      · refine .inl ⟨_, rfl, c + 1, k, rfl, by omega, hk, fun _ => ?_, fun _ => ?_, fun hk' => by omega, by omega⟩
        · rw [Nat.add_sub_add_right]
          by_cases hc0 : 0 < c
          · exact h1 hc0
          · obtain rfl : c = 0 := by omega
            obtain rfl := h0 rfl
            exact hX.ge _ (by omega)
        · rw [Nat.add_sub_cancel]
          exact lt_of_le_of_ne (not_lt.1 c1) c2) with ⟨r, e, c, k, rfl, hc, hk, h1, h2, h3, -⟩ | ⟨-, hf⟩
  · rw [e, Res.ok_bind]
    rcases checkPointsInCell_cases p c with ⟨e, hc'⟩ | ⟨e, hc'⟩
    · exact e
    · rw [Nat.zero_add] at hc h1 h2 h3
      exact absurd hc' fun hc' => over c k N hc (le_refl _) h1 (fun h => (h2 h).le) hk hc'
  · exact hf.elim

/-- A grid with an overfull cell is rejected, when no cell is without points. -/
theorem C47_rejects_partial (h : bs.Is per p n t) (lower upper : Closure) {s N : Nat} {coord : Elem Unit → Res K}
    {X : Nat → K} (hX : PointsIn t p n s N coord X) (hinc : PointsIncrease N X)
    (hcells : ∀ k, k < n → ∃ i, i < N ∧ t (p + k) ≤ X i ∧ X i < t (p + k + 1))
    (hfull : Overfull t p n N X) :
    checkValidGrid bs lower upper (seg () s (s + N)) coord = .throw := by
  by_cases hN : lower.equations p + N + upper.equations p = if per then n else n + p
  swap
  · exact C47_wrong_count h lower upper hX hN
  have hp := h.pos
  have hn := h.cells
  rw [checkValidGrid_eq h lower upper hX rfl hN]
  rcases forLoop_throw (f := fun i => gridStep bs coord (el () (s + i))) (fun i r => ∃ c k, r = (c, el () (p + k + 1)) ∧
      c ≤ i ∧ k ≤ n ∧ (∀ k', k' < k → cellCount t p N X k' ≤ p + 1) ∧ (∀ j, j < i - c → X j < t (p + k)) ∧
      (0 < i → t (p + k) ≤ X (i - 1)) ∧ (k < n → 0 < i → X (i - 1) < t (p + k + 1)) ∧ (k = n → 0 < i) ∧ (i = 0 → k = 0))
    True N 0 (0, el () (p + 0 + 1)) ⟨0, 0, rfl, le_refl _, by omega, fun k hk => by omega, fun j hj => by omega,
      fun h => by omega, fun _ h => by omega, fun h => by omega, fun _ => rfl⟩
    (by
      rintro i _ - hi ⟨c, k, rfl, hc, hk, h1, h2, h3, h4, h5, h6⟩
      rw [gridStep_eq h hX (by omega) hk]
      rw [Nat.zero_add] at hi
      have hkn : k < n := by
        rcases Nat.eq_or_lt_of_le hk with rfl | hk
        · have g1 := h5 rfl
          have g2 := h3 g1
          have a2 := hinc (i - 1) i (by omega) (by omega)
          have a3 := hX.le i (by omega)
          exact absurd (lt_of_le_of_lt g2 a2) (not_lt.2 a3)
        · exact hk
      have hbefore : ∀ j, j < i → X j < t (p + k + 1) := fun j hj =>
        lt_of_le_of_lt (hinc.le (show j ≤ i - 1 by omega) (by omega)) (h4 hkn (by omega))
      have hnext : t (p + k + 1) ≤ X i → k + 1 < n → X i < t (p + (k + 1) + 1) := by
        intro hx hk'
        obtain ⟨j, hj, g1, g2⟩ := hcells (k + 1) hk'
        refine lt_of_le_of_lt (hinc.le ?_ hj) g2
        by_contra hji
        exact absurd g1 (not_le.2 (hbefore j (by omega)))
      have hcount : ∀ c', cellCount t p N X k ≤ c' → c' ≤ p + 1 → ∀ k', k' < k + 1 → cellCount t p N X k' ≤ p + 1 := by
        intro c' g1 g2 k' hk'
        rcases Nat.eq_or_lt_of_le (Nat.lt_succ_iff.1 hk') with rfl | hk'
        · omega
        · exact h1 k' hk'
      have hlow : ∀ j, j < N → t (p + k) ≤ X j → i - c ≤ j := by
        intro j hj g
        by_contra hji
        exact absurd g (not_le.2 (h2 j (by omega)))
      split_ifs with c1 c2
      · rcases checkPointsInCell_cases p c with ⟨e, hc'⟩ | ⟨e, hc'⟩
        · rw [e, Res.ok_bind]
          refine .inl ⟨_, rfl, 1, k + 1, rfl, by omega, by omega, hcount c ?_ hc', fun j hj => hbefore j (by omega),
            fun _ => ?_, fun hk' _ => ?_, fun _ => by omega, fun hz => hz.elim⟩
          · refine (cellCount_le (a := i - c) (b := i) fun j hj g1 g2 => ⟨hlow j hj g1, ?_⟩).trans (by omega)
            by_contra hji
            exact absurd (lt_of_lt_of_le c1 (hinc.le (show i ≤ j by omega) hj)) (not_lt.2 g2)
          · rw [Nat.add_sub_cancel]; exact c1.le
          · rw [Nat.add_sub_cancel]; exact hnext c1.le hk'
        · rw [e]; exact .inr ⟨rfl, trivial⟩
      · rcases checkPointsInCell_cases p (c + 1) with ⟨e, hc'⟩ | ⟨e, hc'⟩
        · rw [e, Res.ok_bind]
          refine .inl ⟨_, rfl, 1, k + 1, rfl, by omega, by omega, hcount (c + 1) ?_ hc', fun j hj => hbefore j (by omega),
            fun _ => ?_, fun hk' _ => ?_, fun _ => by omega, fun hz => hz.elim⟩
          · refine (cellCount_le (a := i - c) (b := i + 1) fun j hj g1 g2 => ⟨hlow j hj g1, ?_⟩).trans (by omega)
            by_contra hji
            have := hinc i j (by omega) hj
            rw [c2] at this
            exact absurd this (not_lt.2 g2)
          · rw [Nat.add_sub_cancel]; exact c2.ge
          · rw [Nat.add_sub_cancel]; exact hnext c2.ge hk'
        · rw [e]; exact .inr ⟨rfl, trivial⟩
      · refine .inl ⟨_, rfl, c + 1, k, rfl, by omega, hk, h1, fun j hj => h2 j (by omega), fun _ => ?_, fun _ _ => ?_,
          fun h => by omega, fun hz => hz.elim⟩
        · rw [Nat.add_sub_cancel]
          by_cases hi0 : 0 < i
          · exact (h3 hi0).trans (hinc.le (by omega) hi)
          · obtain rfl := h6 (by omega)
            exact hX.ge _ (by omega)
        · rw [Nat.add_sub_cancel]
          exact lt_of_le_of_ne (not_lt.1 c1) c2) with ⟨r, e, c, k, rfl, hc, hk, h1, h2, h3, h4, h5, h6⟩ | ⟨e, -⟩
  · rw [e, Res.ok_bind]
    rw [Nat.zero_add] at hc h2 h3 h4 h5
    rcases checkPointsInCell_cases p c with ⟨e, hc'⟩ | ⟨e, hc'⟩
    swap
    · exact e
    exfalso
    obtain ⟨i0, hi0, -, -⟩ := hcells 0 hn
    obtain ⟨k', hk', hfull⟩ := hfull
    rcases Nat.lt_trichotomy k' k with hlt | rfl | hlt
    · exact absurd (h1 k' hlt) (by omega)
    · have := cellCount_le (t := t) (p := p) (N := N) (X := X) (k := k') (a := N - c) (b := N) fun j hj g1 g2 =>
        ⟨by
          by_contra hji
          exact absurd g1 (not_le.2 (h2 j (by omega))), hj⟩
      omega
    · obtain ⟨j, hj, g1, -⟩ := hcells k' hk'
      have a1 := h4 (by omega) (by omega)
      have a2 : t (p + k + 1) ≤ t (p + k') := h.mono (by omega)
      exact absurd (a2.trans (g1.trans (hinc.le (show j ≤ N - 1 by omega) (by omega)))) (not_le.2 a1)
  · rw [e]; rfl

/-- The constructor throws when the validation does. -/
theorem C47_constructor (h : bs.Is per p n t) (L : Lapack K) (σ : Sched) {lower upper : Closure}
    (hf : Fits per lower upper) {dom : Dom Unit} {coord : Elem Unit → Res K}
    (hgrid : checkValidGrid bs lower upper dom coord = .throw) :
    Builder.mk' L σ bs lower upper dom coord = .throw := by
  have hfit : (per == decide (lower = .periodic) && per == decide (upper = .periodic)) = true := by
    rw [Fits] at hf
    cases per <;> simpa using hf
  rw [Builder.mk', h.periodic, hfit]
  dsimp only [Res.guardIll]
  rw [if_pos rfl, Res.ok_bind, h.rmax, Res.ok_bind, h.rmin, Res.ok_bind, h.ncells, Res.ok_bind, hgrid]
  rfl

/-- An overfull grid that is accepted: linear splines on the cells `[0, 1]`, …, `[3, 4]`, with four of the five
points in the last cell. -/
theorem C47_skipped_cells :
    Overfull (uniformKnot (0 : Rat) 4 4 1) 1 4 5 (fun k => [0, 31 / 10, 32 / 10, 33 / 10, 34 / 10].getD k 0) ∧
    (do
      let u ← UBS.mk' 1 false (0 : Rat) 4 4
      checkValidGrid (.uniform u) .greville .greville (seg () 0 5)
        (listPoints [0, 31 / 10, 32 / 10, 33 / 10, 34 / 10])) = .ok () :=
  ⟨⟨3, by decide, by decide +kernel⟩, by decide +kernel⟩

/-- Another one, without a cell that holds no point: linear splines on the cells `[0, 1]`, `[1, 2]`, `[2, 3]`,
with three points in the last cell, one of which is its lower end. -/
theorem C47_missed_end :
    Overfull (uniformKnot (0 : Rat) 3 3 1) 1 3 4 (fun k => [1 / 2, 2, 9 / 4, 5 / 2].getD k 0) ∧
    (∀ k < 3, 0 < cellCount (uniformKnot (0 : Rat) 3 3 1) 1 4 (fun k => [1 / 2, 2, 9 / 4, 5 / 2].getD k 0) k) ∧
    (do
      let u ← UBS.mk' 1 false (0 : Rat) 3 3
      checkValidGrid (.uniform u) .greville .greville (seg () 0 4) (listPoints [1 / 2, 2, 9 / 4, 5 / 2])) = .ok () :=
  ⟨⟨2, by decide, by decide +kernel⟩, by decide +kernel, by decide +kernel⟩

/-- No spline takes the values `0, 0, 0, 1` at the points of this grid. -/
theorem C47_accepted_singular : ¬ ∃ c : Nat → Rat, ∀ k < 4,
    splineValue (uniformKnot (0 : Rat) 3 3 1) 1 3 c ([1 / 2, 2, 9 / 4, 5 / 2].getD k 0) = if k = 3 then 1 else 0 := by
  rintro ⟨c, h⟩
  have e : ∀ k < 4, ∀ J < 4, bspline (uniformKnot (0 : Rat) 3 3 1) (uniformKnot (0 : Rat) 3 3 1 (1 + 3)) 1 J
      ([1 / 2, 2, 9 / 4, 5 / 2].getD k 0) =
        (([[1 / 2, 1 / 2, 0, 0], [0, 0, 1, 0], [0, 0, 3 / 4, 1 / 4], [0, 0, 1 / 2, 1 / 2]] : List (List Rat)).getD k []).getD J 0 := by
    decide +kernel
  have h1 := h 1 (by decide)
  have h2 := h 2 (by decide)
  have h3 := h 3 (by decide)
  rw [splineValue] at h1 h2 h3
  simp only [Finset.sum_range_succ, Finset.sum_range_zero, e 1 (by decide) 0 (by decide), e 1 (by decide) 1 (by decide),
    e 1 (by decide) 2 (by decide), e 1 (by decide) 3 (by decide)] at h1
  simp only [Finset.sum_range_succ, Finset.sum_range_zero, e 2 (by decide) 0 (by decide), e 2 (by decide) 1 (by decide),
    e 2 (by decide) 2 (by decide), e 2 (by decide) 3 (by decide)] at h2
  simp only [Finset.sum_range_succ, Finset.sum_range_zero, e 3 (by decide) 0 (by decide), e 3 (by decide) 1 (by decide),
    e 3 (by decide) 2 (by decide), e 3 (by decide) 3 (by decide)] at h3
  norm_num at h1 h2 h3
  linarith

/-- A grid that is accepted and one that is rejected: linear splines on `[0, 1]`, `[1, 2]`. -/
example : ∃ u, UBS.mk' 1 false (0 : Rat) 2 2 = .ok u ∧
    checkValidGrid (.uniform u) .greville .greville (seg () 0 (0 + 3)) (listPoints [0, 1, 2]) = .ok () ∧
    checkValidGrid (.uniform u) .greville .greville (seg () 0 (0 + 3)) (listPoints [0, 1 / 2, 1]) = .throw := by
  obtain ⟨u, eu, hu⟩ := BSpl.is_uniform (p := 1) (by norm_num) false (a := (0 : Rat)) (b := 2) (by norm_num) (n := 2)
    (by norm_num) (by norm_num)
  refine ⟨u, eu, C47_accepts hu .greville .greville (X := fun k => [0, 1, 2].getD k 0)
      ⟨by norm_num, by decide +kernel, by decide +kernel, by decide +kernel⟩ (fun i j hij hj => ?_) rfl ?_,
    C47_rejects_partial hu .greville .greville (X := fun k => [0, 1 / 2, 1].getD k 0)
      ⟨by norm_num, by decide +kernel, by decide +kernel, by decide +kernel⟩ (fun i j hij hj => ?_) ?_
      ⟨0, by decide, by decide +kernel⟩⟩
  · interval_cases j <;> interval_cases i <;> norm_num
  · rintro ⟨k, hk, h⟩
    clear hu eu
    revert h
    interval_cases k <;> decide +kernel
  · interval_cases j <;> interval_cases i <;> norm_num
  · intro k hk
    interval_cases k
    · exact ⟨0, by decide, by decide +kernel⟩
    · exact ⟨2, by decide, by decide +kernel⟩

end DDC.Props
