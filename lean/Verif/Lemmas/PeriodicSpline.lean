import Verif.Lemmas.PeriodicZeros
import Verif.Spec.WellPosed

/-!
# Periodic interpolation problems

A periodic interpolation problem with an odd number of cells that satisfies the conditions of Schoenberg and
Whitney has one solution; the conditions for consecutive points, with the other coefficients zero, always
have one.
-/

set_option linter.unusedSectionVars false

namespace DDC.Spec

open Polynomial Zeros

theorem piece_congr {K : Type} [Field K] [LinearOrder K] {t t' : Nat → K} (c p : Nat) {i : Nat}
    (h : ∀ j, i ≤ j → j ≤ i + p + 1 → t j = t' j) : piece t c p i = piece t' c p i := by
  induction p generalizing i with
  | zero => rw [piece, piece]
  | succ p ih =>
    rw [piece_succ, piece_succ, ih fun j h1 h2 => h j h1 (by omega), ih fun j h1 h2 => h j (by omega) (by omega),
      h i le_rfl (by omega), h (i + p + 1) (by omega) (by omega), h (i + p + 2) (by omega) (by omega), h (i + 1) (by omega) (by omega)]

section real
variable {t : Nat → ℝ} {p n : Nat}

/-- The knots continued to the right. -/
noncomputable def endless (t : Nat → ℝ) (p n i : Nat) : ℝ := t (i % n) + (i / n : Nat) * (t (p + n) - t p)

theorem PeriodicKnots.endless_eq (h : PeriodicKnots t p n) : ∀ i, i ≤ n + 2 * p → endless t p n i = t i := by
  have hn := h.cells
  intro i
  induction i using Nat.strong_induction_on with
  | _ i ih =>
    intro hi
    rcases Nat.lt_or_ge i n with c | c
    · rw [endless, Nat.mod_eq_of_lt c, Nat.div_eq_of_lt c]; simp
    · have h1 := ih (i - n) (by omega) (by omega)
      have h2 := h.period (i - n) (by omega)
      rw [show i - n + n = i by omega] at h2
      rw [h2, ← h1, endless, endless, Nat.mod_eq_sub_mod c, Nat.div_eq_sub_div hn c]
      push_cast
      ring

theorem PeriodicKnots.circle (h : PeriodicKnots t p n) : Circle (endless t p n) n (t (p + n) - t p) where
  pos := h.cells
  period i := by
    rw [endless, endless, Nat.add_mod_right, Nat.add_div_right _ h.cells]
    push_cast
    ring
  strict := by
    have hn := h.cells
    refine strictMono_nat_of_lt_succ fun i => ?_
    have e := Nat.div_add_mod i n
    have hm := Nat.mod_lt i hn
    have hs := h.strict (i % n) (by omega)
    by_cases c : i % n + 1 = n
    · have e1 : (i + 1) % n = 0 := by
        rw [show i + 1 = n * (i / n + 1) by rw [Nat.mul_add]; omega]
        exact Nat.mul_mod_right _ _
      have e2 : (i + 1) / n = i / n + 1 := by
        rw [show i + 1 = n * (i / n + 1) by rw [Nat.mul_add]; omega]
        exact Nat.mul_div_cancel_left _ hn
      have h0 := h.period 0 (by omega)
      rw [endless, endless, e1, e2]
      rw [c, ← Nat.zero_add n, h0] at hs
      rw [Nat.zero_add] at hs
      push_cast
      linarith
    · have e1 : (i + 1) % n = i % n + 1 := by
        rw [← e, Nat.add_assoc, Nat.mul_add_mod, Nat.mul_add_mod, Nat.mod_mod, Nat.mod_eq_of_lt (by omega)]
      have e2 : (i + 1) / n = i / n := by
        rw [show i + 1 = i % n + 1 + n * (i / n) by omega, Nat.add_mul_div_left _ _ hn, Nat.div_eq_of_lt (by omega)]
        omega
      rw [endless, endless, e1, e2]
      linarith

/-- The value of a spline at a point of the first period. -/
theorem PeriodicKnots.value (h : PeriodicKnots t p n) (ht : Monotone t) {z : ℝ} (h1 : t p ≤ z) (h2 : z < t (p + n)) {c : Nat}
    (c1 : endless t p n c ≤ z) (c2 : z < endless t p n (c + 1)) (x : Nat → ℝ) : p ≤ c ∧
    (splinePiece (endless t p n) p (c + 1) x c).eval z = ∑ J ∈ Finset.range (n + p), x J * bspline t (t (p + n)) p J z := by
  have hn := h.cells
  have hs := h.circle.strict
  rw [← h.endless_eq p (by omega)] at h1
  rw [← h.endless_eq (p + n) (by omega)] at h2
  have hpc : p ≤ c := by
    by_contra hcon
    exact absurd (c2.trans_le (hs.monotone (show c + 1 ≤ p by omega))) (not_lt.2 h1)
  have hcn : c < p + n := by
    by_contra hcon
    exact absurd (h2.trans_le (hs.monotone (show p + n ≤ c by omega))) (not_lt.2 c1)
  rw [h.endless_eq (p + n) (by omega)] at h2
  rw [h.endless_eq c (by omega)] at c1
  rw [h.endless_eq (c + 1) (by omega)] at c2
  have hin : InCell t (t (p + n)) z c := by
    rw [InCell, if_pos h2]
    exact ⟨c1, c2⟩
  refine ⟨hpc, ?_⟩
  rw [← splinePiece_stable (endless t p n) x p (show c < n + p by omega), splinePiece, eval_finsetSum]
  refine Finset.sum_congr rfl fun J hJ => ?_
  have := Finset.mem_range.1 hJ
  rw [eval_mul, eval_C, bspline_eq_piece ht hin, piece_congr c p fun j g1 g2 => h.endless_eq j (by omega)]

/-- The points lie inside the supports. -/
theorem PeriodicKnots.inside (h : PeriodicKnots t p n) (ht : Monotone t) (hp : 0 < p) {z : ℝ} (h1 : t p ≤ z) (h2 : z < t (p + n))
    {J : Nat} (hJ : J < n + p) (hne : bspline t (t (p + n)) p J z ≠ 0) :
    endless t p n J < z ∧ z < endless t p n (J + p + 1) := by
  have hn := h.cells
  rw [h.endless_eq J (by omega), h.endless_eq (J + p + 1) (by omega)]
  obtain ⟨c, c1, c2, c3, c4⟩ := exists_cell (u := p) (v := p + n) (by omega) h1 h2
  have hin : InCell t (t (p + n)) z c := by
    rw [InCell, if_pos h2]
    exact ⟨c3, c4⟩
  rw [bspline_eq_piece ht hin] at hne
  have hj : J ≤ c ∧ c ≤ J + p := by
    by_contra hcon
    rw [piece_zero t c p J (by omega)] at hne
    simp at hne
  refine ⟨lt_of_le_of_ne ((ht hj.1).trans c3) fun e => ?_, c4.trans_le (ht (by omega))⟩
  have hjc : J = c := by
    by_contra hne
    exact absurd ((h.strict J (by omega)).trans_le (ht (show J + 1 ≤ c by omega))) (not_lt.2 (e ▸ c3))
  subst hjc
  obtain ⟨p, rfl⟩ : ∃ q, p = q + 1 := ⟨p - 1, by omega⟩
  rw [← e] at hne
  exact hne (piece_first t p J)

/-- The whole problem, with an odd number of cells. -/
theorem periodic_real (h : PeriodicKnots t p n) (ht : Monotone t) (hp : 0 < p) (hodd : n % 2 = 1) {off : Nat} (hpn : p ≤ n) (hoff : off ≤ p)
    {X : Nat → ℝ} (hX : PeriodicSchoenbergWhitney t p n off X) {x : Nat → ℝ} (hx : ∀ J, J < p → x (J + n) = x J)
    (hz : ∀ i, i < n → ∑ J ∈ Finset.range (n + p), x J * bspline t (t (p + n)) p J (X i) = 0) :
    ∀ J, J < n + p → x J = 0 := by
  have hn := h.cells
  have hc := h.circle
  have hlen := hc.len_pos
  set len := t (p + n) - t p with hlendef
  set T := endless t p n with hT
  have hx' : ∀ J, J < n + p → x (J % n) = x J := by
    intro J hJ
    rcases Nat.lt_or_ge J n with c | c
    · rw [Nat.mod_eq_of_lt c]
    · rw [Nat.mod_eq_sub_mod c, Nat.mod_eq_of_lt (by omega), ← hx (J - n) (by omega), show J - n + n = J by omega]
  -- the points of all periods
  obtain ⟨y, hy⟩ : ∃ y : Nat → ℝ, ∀ k, y k = X ((k + n - off) % n) + ((k + n - off) / n : Nat) * len - len := ⟨_, fun _ => rfl⟩
  have hyp : ∀ k, y (k + n) = y k + len := by
    intro k
    rw [hy, hy, show k + n + n - off = k + n - off + n by omega, Nat.add_mod_right, Nat.add_div_right _ hn]
    push_cast
    ring
  have hyX : ∀ i, i < n → y (off + i) = X i := by
    intro i hi
    rw [hy, show off + i + n - off = i + n by omega, Nat.add_mod_right, Nat.add_div_right _ hn, Nat.mod_eq_of_lt hi,
      Nat.div_eq_of_lt hi]
    push_cast
    ring
  have hyX0 : ∀ k, k < off → y k + len = X (k + n - off) := by
    intro k hk
    rw [← hyp, ← hyX _ (by omega), show off + (k + n - off) = k + n by omega]
  have hrec : ∀ P : Nat → Prop, (∀ k, k < off → P k) → (∀ i, i < n → P (off + i)) → (∀ k, off ≤ k → P k → P (k + n)) → ∀ k, P k := by
    intro P h1 h2 h3 k
    induction k using Nat.strong_induction_on with
    | _ k ih =>
      rcases Nat.lt_or_ge k off with c | c
      · exact h1 k c
      · rcases Nat.lt_or_ge k (off + n) with c' | c'
        · have := h2 (k - off) (by omega)
          rwa [show off + (k - off) = k by omega] at this
        · have := h3 _ (by omega) (ih (k - n) (by omega))
          rwa [show k - n + n = k by omega] at this
  have hyT : ∀ k, T k < y k ∧ y k < T (k + p + 1) := by
    refine hrec _ (fun k hk => ?_) (fun i hi => ?_) fun k _ hk => ?_
    · have := h.inside ht hp (hX.ge _ (by omega)) (hX.lt _ (by omega)) (by omega) (hX.support (k + n - off) (by omega))
      rw [← hyX0 k hk, ← hT, show off + (k + n - off) = k + n by omega, show k + n + p + 1 = k + p + 1 + n by omega,
        hc.period, hc.period] at this
      constructor <;> linarith [this.1, this.2]
    · rw [hyX i hi]
      exact h.inside ht hp (hX.ge _ hi) (hX.lt _ hi) (by omega) (hX.support i hi)
    · rw [hyp, hc.period, show k + n + p + 1 = k + p + 1 + n by omega, hc.period]
      constructor <;> linarith [hk.1, hk.2]
  have hinc : StrictMono y := by
    have hstep : ∀ i, i < n → y (off + i) < y (off + i + 1) := by
      intro i hi
      rcases Nat.lt_or_ge (i + 1) n with c | c
      · rw [hyX i hi, show off + i + 1 = off + (i + 1) by omega, hyX _ c]
        exact hX.increase _ _ (by omega) c
      · rw [hyX i hi, show off + i + 1 = off + 0 + n by omega, hyp, hyX 0 (by omega)]
        have h1 := hX.lt i hi
        have h2 := hX.ge 0 hn
        rw [hlendef]
        linarith
    refine strictMono_nat_of_lt_succ (hrec _ (fun k hk => ?_) hstep fun k _ hk => ?_)
    · have h1 := hyX0 k hk
      have h2 := hstep (k + n - off) (by omega)
      rw [show off + (k + n - off) = k + n by omega, show k + n + 1 = k + 1 + n by omega, hyp, hyp] at h2
      linarith
    · rw [hyp, show k + n + 1 = k + 1 + n by omega, hyp]
      linarith
  have hper : ∀ J, (fun J => x (J % n)) (J + n) = (fun J => x (J % n)) J := fun J => by simp
  have hval : ∀ k c, p ≤ c → T c ≤ y k → y k < T (c + 1) → (splinePiece T p (c + 1) (fun J => x (J % n)) c).eval (y k) = 0 := by
    have hbase : ∀ i c, i < n → T c ≤ X i → X i < T (c + 1) → p ≤ c ∧ (splinePiece T p (c + 1) (fun J => x (J % n)) c).eval (X i) = 0 := by
      intro i c hi c1 c2
      obtain ⟨h1, h2⟩ := h.value ht (hX.ge i hi) (hX.lt i hi) c1 c2 fun J => x (J % n)
      refine ⟨h1, ?_⟩
      rw [h2, ← hz i hi]
      exact Finset.sum_congr rfl fun J hJ => by rw [hx' J (Finset.mem_range.1 hJ)]
    have key : ∀ k, ∀ c, p ≤ c → T c ≤ y k → y k < T (c + 1) →
        (splinePiece T p (c + 1) (fun J => x (J % n)) c).eval (y k) = 0 := by
      refine hrec _ (fun k hk c h0 h1 h2 => ?_) (fun i hi c _ h1 h2 => ?_) fun k hk ih c h0 h1 h2 => ?_
      · have := hc.turn (fun J => x (J % n)) h0 (y k)
        simp only [Nat.add_mod_right] at this
        rw [← this, hyX0 k hk]
        refine (hbase _ _ (by omega) ?_ ?_).2
        · rw [← hyX0 k hk, hc.period]; linarith
        · rw [← hyX0 k hk, show c + n + 1 = c + 1 + n by omega, hc.period]; linarith
      · rw [hyX i hi] at h1 h2 ⊢
        exact (hbase i c hi h1 h2).2
      · -- the cell is in the next period
        have hcn : p + n ≤ c := by
          by_contra hcon
          have g1 := hX.ge 0 hn
          rw [← hyX 0 hn, Nat.add_zero, ← h.endless_eq p (by omega), ← hT] at g1
          have g2 := hinc.monotone hk
          have g3 := hc.strict.monotone (show c + 1 ≤ p + n by omega)
          rw [hc.period] at g3
          rw [hyp] at h2
          linarith
        obtain ⟨c, rfl⟩ : ∃ d, c = d + n := ⟨c - n, by omega⟩
        rw [hyp] at h1 h2 ⊢
        rw [hc.period] at h1
        rw [show c + n + 1 = c + 1 + n by omega, hc.period] at h2
        have := hc.turn (fun J => x (J % n)) (show p ≤ c by omega) (y k)
        simp only [Nat.add_mod_right] at this
        rw [this]
        exact ih c (by omega) (by linarith) (by linarith)
    exact key
  intro J hJ
  have := hc.unique hodd hp hper hinc hyp hyT hval J
  rwa [hx' J hJ] at this

/-- The problem restricted to the first `sz` points and to as many B-splines, with any number of cells. -/
theorem periodic_block_real (h : PeriodicKnots t p n) (ht : Monotone t) (hp : 0 < p) {off sz : Nat} (hoff : off ≤ p) (hsz : sz ≤ n)
    {X : Nat → ℝ} (hX : PeriodicSchoenbergWhitney t p n off X) {x : Nat → ℝ}
    (hz : ∀ i, i < sz → ∑ j ∈ Finset.range sz, x j * bspline t (t (p + n)) p (off + j) (X i) = 0) :
    ∀ j, j < sz → x j = 0 := by
  have hn := h.cells
  have hc := h.circle
  have hlen := hc.len_pos
  set len := t (p + n) - t p with hlendef
  set T := endless t p n with hT
  have hTm := hc.strict.monotone
  obtain ⟨A, hA⟩ : ∃ A, A = off + n := ⟨_, rfl⟩
  obtain ⟨x', hx'⟩ : ∃ x' : Nat → ℝ, ∀ J, x' J = if A ≤ J ∧ J < A + sz then x (J - A) else 0 := ⟨_, fun _ => rfl⟩
  have hs : ∀ c k J, k < p → (derivative^[k] (piece T c p J)).eval (T (c + 1)) =
      (derivative^[k] (piece T (c + 1) p J)).eval (T (c + 1)) := fun c k J hk =>
    piece_smooth hTm (hc.strict (by omega)) (hc.strict (by omega)) hk J
  have hlow : ∀ k, k < p → (derivative^[k] (splinePiece T p (A + sz + p + 1) x' A)).eval (T A) = 0 := by
    intro k hk
    rw [splinePiece_deriv]
    refine Finset.sum_eq_zero fun J _ => ?_
    by_cases hJ : A ≤ J
    · have := hs (A - 1) k J hk
      rw [show A - 1 + 1 = A by omega] at this
      rw [basisDeriv, ← this, piece_zero T (A - 1) p J (by omega), iterate_derivative_zero, eval_zero, mul_zero]
    · rw [hx', if_neg (by omega), zero_mul]
  have hupp : ∀ k, k < p → (derivative^[k] (splinePiece T p (A + sz + p + 1) x' (A + sz + p - 1))).eval (T (A + sz + p)) = 0 := by
    intro k hk
    rw [splinePiece_deriv]
    refine Finset.sum_eq_zero fun J _ => ?_
    by_cases hJ : J < A + sz
    · have := hs (A + sz + p - 1) k J hk
      rw [show A + sz + p - 1 + 1 = A + sz + p by omega] at this
      rw [basisDeriv, this, piece_zero T (A + sz + p) p J (by omega), iterate_derivative_zero, eval_zero, mul_zero]
    · rw [hx', if_neg (by omega), zero_mul]
  have hkey := schoenberg_whitney (t := T) hTm (A := A) (B := A + sz + p) (N := A + sz + p + 1) (x := x') hp
    (fun c _ _ => hc.strict (by omega)) (k0 := A) (k1 := A + sz) (y := fun k => X (k - A) + len)
    (fun k h1 h2 => by
      have hin := h.inside ht hp (hX.ge (k - A) (by omega)) (hX.lt _ (by omega)) (by omega) (hX.support (k - A) (by omega))
      have g1 : T k < X (k - A) + len := by
        rw [show k = off + (k - A) + n by omega, hc.period, show off + (k - A) + n - A = k - A by omega]
        linarith [hin.1]
      have g2 : X (k - A) + len < T (k + p + 1) := by
        rw [show k + p + 1 = off + (k - A) + p + 1 + n by omega, hc.period]
        linarith [hin.2]
      refine ⟨(hTm h1).trans_lt g1, g2.trans_le (hTm (by omega)), g1, g2, fun c c1 c2 c3 c4 => ?_⟩
      have hcn : p + n ≤ c := by
        by_contra hcon
        have g3 := hX.ge (k - A) (by omega)
        rw [← h.endless_eq p (by omega), ← hT] at g3
        have g4 := hTm (show c + 1 ≤ p + n by omega)
        rw [hc.period] at g4
        linarith
      obtain ⟨d, rfl⟩ : ∃ d, c = d + n := ⟨c - n, by omega⟩
      rw [hc.period] at c3
      rw [show d + n + 1 = d + 1 + n by omega, hc.period] at c4
      rw [splinePiece_stable T x' p (show d + n < A + sz + p + 1 by omega), hc.turn x' (by omega),
        (h.value ht (hX.ge _ (by omega)) (hX.lt _ (by omega)) (by linarith) (by linarith) _).2, ← hz (k - A) (by omega)]
      rw [show n + p = off + (sz + (n + p - off - sz)) by omega, Finset.sum_range_add, Finset.sum_range_add,
        Finset.sum_eq_zero (s := Finset.range off) fun J hJ => by
          have := Finset.mem_range.1 hJ
          rw [hx', if_neg (by omega), zero_mul],
        Finset.sum_eq_zero (s := Finset.range (n + p - off - sz)) fun J hJ => by rw [hx', if_neg (by omega), zero_mul],
        zero_add, add_zero]
      refine Finset.sum_congr rfl fun j hj => ?_
      have := Finset.mem_range.1 hj
      rw [hx', if_pos (by omega), show off + j + n - A = j by omega])
    (fun i j h1 h2 h3 => by
      have := hX.increase (i - A) (j - A) (by omega) (by omega)
      linarith)
    (e0 := 1) (e1 := 1) (μ := p - 1) (ν := p - 1) (.inr ⟨rfl, hlow 0 hp⟩) (.inr ⟨rfl, hupp 0 hp⟩) (by omega) (by omega)
    (fun k hk => hlow (k + 1) (by omega)) (fun k hk => hupp (k + 1) (by omega)) (by omega) (by omega) (by omega)
  intro j hj
  have := splinePiece_zero hTm (c := A + j + p) (hc.strict (by omega)) (by omega) (by omega) (hkey (A + j + p) (by omega) (by omega))
    (J := A + j) (by omega) (by omega)
  rwa [hx', if_pos (by omega), Nat.add_sub_cancel_left] at this

end real

variable {K : Type} [Field K] [LinearOrder K] [IsStrictOrderedRing K] [Archimedean K] {t : Nat → K} {p n off : Nat} {X : Nat → K}

theorem PeriodicKnots.map {φ : K →+* ℝ} (hφ : StrictMono φ) (h : PeriodicKnots t p n) : PeriodicKnots (fun i => φ (t i)) p n where
  cells := h.cells
  strict i hi := hφ (h.strict i hi)
  period i hi := by rw [h.period i hi, map_add, map_sub]

theorem PeriodicSchoenbergWhitney.map {φ : K →+* ℝ} (hφ : StrictMono φ) (h : PeriodicSchoenbergWhitney t p n off X) :
    PeriodicSchoenbergWhitney (fun i => φ (t i)) p n off (fun i => φ (X i)) where
  increase i j hij hj := hφ (h.increase i j hij hj)
  ge k hk := hφ.monotone (h.ge k hk)
  lt k hk := hφ (h.lt k hk)
  support k hk := by
    rw [map_bspline φ hφ]
    exact (map_ne_zero φ).2 (h.support k hk)

/-- The whole problem, with an odd number of cells. -/
theorem PeriodicSchoenbergWhitney.unique (h : PeriodicKnots t p n) (ht : Monotone t) (hp : 0 < p) (hodd : n % 2 = 1)
    (hpn : p ≤ n) (hoff : off ≤ p) (hX : PeriodicSchoenbergWhitney t p n off X) {x : Nat → K}
    (hx : ∀ J, J < p → x (J + n) = x J)
    (hz : ∀ i, i < n → ∑ J ∈ Finset.range (n + p), x J * bspline t (t (p + n)) p J (X i) = 0) :
    ∀ J, J < n + p → x J = 0 := by
  obtain ⟨φ, hφ⟩ := exists_real K
  intro J hJ
  have := periodic_real (h.map hφ) (fun i j hij => hφ.monotone (ht hij)) hp hodd hpn hoff (hX.map hφ) (x := fun J => φ (x J))
    (fun J hJ => by rw [hx J hJ]) (fun i hi => by
      simp only [map_bspline φ hφ, ← map_mul]
      rw [← map_sum, hz i hi, map_zero]) J hJ
  exact (map_eq_zero φ).1 this

/-- The problem restricted to the first `sz` points and to as many B-splines, with any number of cells. -/
theorem PeriodicSchoenbergWhitney.unique_block (h : PeriodicKnots t p n) (ht : Monotone t) (hp : 0 < p) (hoff : off ≤ p)
    {sz : Nat} (hsz : sz ≤ n) (hX : PeriodicSchoenbergWhitney t p n off X) {x : Nat → K}
    (hz : ∀ i, i < sz → ∑ j ∈ Finset.range sz, x j * bspline t (t (p + n)) p (off + j) (X i) = 0) :
    ∀ j, j < sz → x j = 0 := by
  obtain ⟨φ, hφ⟩ := exists_real K
  intro j hj
  have := periodic_block_real (h.map hφ) (fun i j hij => hφ.monotone (ht hij)) hp hoff hsz (hX.map hφ) (x := fun J => φ (x J))
    (fun i hi => by
      simp only [map_bspline φ hφ, ← map_mul]
      rw [← map_sum, hz i hi, map_zero]) j hj
  exact (map_eq_zero φ).1 this

end DDC.Spec
