import Verif.Lemmas.SplineMap

/-!
# Splines with clamped knots

With repeated knots at the ends the first B-splines carry the first derivatives; the interpolation problem
restricted to the inner B-splines is well posed under the conditions of Schoenberg and Whitney.
-/

namespace DDC.Spec

open Polynomial

section
variable {K : Type} [Field K] [LinearOrder K] {t : Nat → K}

/-- At a lower end where the knots are repeated. -/
theorem piece_lower (ht : Monotone t) {c : Nat} (hc : ∀ i, i ≤ c → t i = t c) {p k i : Nat} (h : c + k < i + p) :
    (derivative^[k] (piece t c p i)).eval (t c) = 0 := by
  induction p generalizing k i with
  | zero =>
    rw [piece_zero t c 0 i (by omega), iterate_derivative_zero, eval_zero]
  | succ p ih =>
    cases k with
    | zero =>
      rw [Function.iterate_zero_apply, piece_succ]
      simp only [eval_add, eval_mul, eval_C, eval_sub, eval_X]
      have h2 := ih (k := 0) (i := i + 1) (by omega)
      rw [Function.iterate_zero_apply] at h2
      rw [h2, mul_zero, add_zero]
      by_cases hi : i ≤ c
      · rw [hc i hi, sub_self, mul_zero, zero_mul]
      · rw [piece_zero t c p i (by omega), eval_zero, mul_zero]
    | succ k =>
      simp only [Function.iterate_succ_apply, derivative_piece ht, iterate_derivative_C_mul, iterate_derivative_sub,
        eval_mul, eval_C, eval_sub]
      rw [ih (by omega), ih (by omega)]
      simp

/-- At an upper end where the knots are repeated. -/
theorem piece_upper (ht : Monotone t) {c p : Nat} (hc : ∀ i, c < i → i ≤ c + p → t i = t (c + 1)) {k i : Nat} (h : i + k < c) :
    (derivative^[k] (piece t c p i)).eval (t (c + 1)) = 0 := by
  induction p generalizing k i with
  | zero =>
    rw [piece_zero t c 0 i (by omega), iterate_derivative_zero, eval_zero]
  | succ p ih =>
    have ih := @ih fun i h1 h2 => hc i h1 (by omega)
    cases k with
    | zero =>
      rw [Function.iterate_zero_apply, piece_succ]
      simp only [eval_add, eval_mul, eval_C, eval_sub, eval_X]
      have h2 := ih (k := 0) (i := i) (by omega)
      rw [Function.iterate_zero_apply] at h2
      rw [h2, mul_zero, zero_add]
      by_cases hi : i + 1 < c
      · have h3 := ih (k := 0) (i := i + 1) (by omega)
        rw [Function.iterate_zero_apply] at h3
        rw [h3, mul_zero]
      · rw [hc (i + p + 2) (by omega) (by omega), sub_self, mul_zero, zero_mul]
    | succ k =>
      simp only [Function.iterate_succ_apply, derivative_piece ht, iterate_derivative_C_mul, iterate_derivative_sub,
        eval_mul, eval_C, eval_sub]
      rw [ih (by omega), ih (by omega)]
      simp

/-- A B-spline is positive inside its support, and up to the first knot of the last interval of the support. -/
theorem bspline_pos [IsStrictOrderedRing K] (ht : Monotone t) {b x : K} {c : Nat} (hc : InCell t b x c)
    (hx : x < t (c + 1)) {p i : Nat} (h1 : i ≤ c) (h2 : c ≤ i + p) (h : t i < x ∨ c = i + p) : 0 < bspline t b p i x := by
  have hcx := hc.le.1
  induction p generalizing i with
  | zero =>
    obtain rfl : i = c := by omega
    rw [bspline, if_pos hc]
    exact one_pos
  | succ p ih =>
    rw [bspline]
    have n1 : 0 ≤ (x - t i) / (t (i + p + 1) - t i) * bspline t b p i x :=
      mul_nonneg (div_nonneg (sub_nonneg.2 ((ht h1).trans hcx)) (sub_nonneg.2 (ht (by omega)))) (bspline_nonneg ht hc _ _)
    by_cases hcp : c = i + (p + 1)
    · have a1 : t (i + 1) < t (i + p + 2) := (ht (show i + 1 ≤ c by omega)).trans_lt
        ((hcx.trans_lt hx).trans_le (ht (by omega)))
      have a2 : x < t (i + p + 2) := hx.trans_le (ht (by omega))
      have := mul_pos (div_pos (sub_pos.2 a2) (sub_pos.2 a1)) (ih (i := i + 1) (by omega) (by omega) (.inr (by omega)))
      linarith
    · have h3 : t i < x := h.resolve_right hcp
      have a1 : x < t (i + p + 1) := hx.trans_le (ht (by omega))
      have := mul_pos (div_pos (sub_pos.2 h3) (sub_pos.2 (h3.trans a1))) (ih (i := i) h1 (by omega) (.inl h3))
      have n2 : 0 ≤ (t (i + p + 2) - x) / (t (i + p + 2) - t (i + 1)) * bspline t b p (i + 1) x :=
        mul_nonneg (div_nonneg (sub_nonneg.2 (a1.le.trans (ht (by omega)))) (sub_nonneg.2 (ht (by omega))))
          (bspline_nonneg ht hc _ _)
      linarith

/-- The last B-spline of an interval is positive in it, up to its upper end. -/
theorem bspline_pos_last [IsStrictOrderedRing K] (ht : Monotone t) {b x : K} {c : Nat} (hc : InCell t b x c)
    (hx : t c < x) (p : Nat) : 0 < bspline t b p c x := by
  have hcx := hc.le.2
  induction p with
  | zero =>
    rw [bspline, if_pos hc]
    exact one_pos
  | succ p ih =>
    rw [bspline]
    have := mul_pos (div_pos (sub_pos.2 hx) (sub_pos.2 (hx.trans_le (hcx.trans (ht (show c + 1 ≤ c + p + 1 by omega)))))) ih
    have n2 : 0 ≤ (t (c + p + 2) - x) / (t (c + p + 2) - t (c + 1)) * bspline t b p (c + 1) x :=
      mul_nonneg (div_nonneg (sub_nonneg.2 (hcx.trans (ht (by omega)))) (sub_nonneg.2 (ht (by omega))))
        (bspline_nonneg ht hc _ _)
    linarith

end

/-- The problem restricted to the B-splines `r0 ≤ J < r1`, over the real numbers. -/
theorem clamped_real {t : Nat → ℝ} (ht : Monotone t) {p n r0 r1 : Nat} (hp : 0 < p) (hn : 0 < n)
    (hst : ∀ c, p ≤ c → c < p + n → t c < t (c + 1)) (hlow : ∀ i, i ≤ p → t i = t p)
    (hupp : ∀ i, p + n ≤ i → i < p + n + p → t i = t (p + n)) (hr0 : r0 ≤ p) (hr1 : r1 ≤ n + p) (hr1' : n ≤ r1)
    (hr : r0 < r1) {Y : Nat → ℝ} (hinc : ∀ i j, r0 ≤ i → i < j → j < r1 → Y i < Y j)
    (hY : ∀ i, r0 ≤ i → i < r1 → t p ≤ Y i ∧ Y i ≤ t (p + n) ∧ bspline t (t (p + n)) p i (Y i) ≠ 0) {x : Nat → ℝ}
    (hx0 : ∀ J, J < r0 ∨ r1 ≤ J → x J = 0)
    (hx : ∀ i, r0 ≤ i → i < r1 → ∑ J ∈ Finset.range (n + p), bspline t (t (p + n)) p J (Y i) * x J = 0) :
    ∀ J, J < n + p → x J = 0 := by
  have hab : t p < t (p + n) := (hst p le_rfl (by omega)).trans_le (ht (by omega))
  have hpts : ∀ i, r0 ≤ i → i < r1 → ∀ c, InCell t (t (p + n)) (Y i) c → (splinePiece t p (n + p) x c).eval (Y i) = 0 := by
    intro i h1 h2 c hc
    rw [splinePiece_eval ht hc, ← hx i h1 h2]
    exact Finset.sum_congr rfl fun J _ => mul_comm _ _
  have hcell0 : InCell t (t (p + n)) (t p) p := by
    rw [InCell, if_pos hab]
    exact ⟨le_rfl, hst p le_rfl (by omega)⟩
  have hcell1 : InCell t (t (p + n)) (t (p + n)) (p + n - 1) := by
    rw [InCell, if_neg (lt_irrefl _), show p + n - 1 + 1 = p + n by omega]
    refine ⟨?_, le_rfl⟩
    have := hst (p + n - 1) (by omega) (by omega)
    rwa [show p + n - 1 + 1 = p + n by omega] at this
  have hle : ∀ i j, r0 ≤ i → i ≤ j → j < r1 → Y i ≤ Y j := by
    intro i j h0 hij hj
    rcases hij.eq_or_lt with rfl | hij
    · exact le_rfl
    · exact (hinc i j h0 hij hj).le
  -- the orders at the ends
  have hder0 : ∀ k, k < r0 → (derivative^[k] (splinePiece t p (n + p) x p)).eval (t p) = 0 := by
    intro k hk
    rw [splinePiece_deriv]
    refine Finset.sum_eq_zero fun J _ => ?_
    by_cases hJ : J < r0
    · rw [hx0 J (.inl hJ), zero_mul]
    · rw [basisDeriv, piece_lower ht hlow (by omega), mul_zero]
  have hder1 : ∀ k, k < n + p - r1 → (derivative^[k] (splinePiece t p (n + p) x (p + n - 1))).eval (t (p + n)) = 0 := by
    intro k hk
    rw [splinePiece_deriv]
    refine Finset.sum_eq_zero fun J _ => ?_
    by_cases hJ : r1 ≤ J
    · rw [hx0 J (.inr hJ), zero_mul]
    · have := piece_upper ht (c := p + n - 1) (p := p) (i := J) (k := k)
        (fun i h1 h2 => by rw [show p + n - 1 + 1 = p + n by omega]; exact hupp i (by omega) (by omega)) (by omega)
      rw [show p + n - 1 + 1 = p + n by omega] at this
      rw [basisDeriv, this, mul_zero]
  have hval0 : ∀ i, r0 ≤ i → i < r1 → 0 < r0 → t p < Y i := by
    intro i h1 h2 h3
    obtain ⟨a1, -, a3⟩ := hY i h1 h2
    refine lt_of_le_of_ne a1 fun e => a3 ?_
    rw [← e, bspline_eq_piece ht hcell0]
    exact piece_lower ht hlow (k := 0) (by omega)
  have hval1 : ∀ i, r0 ≤ i → i < r1 → r1 < n + p → Y i < t (p + n) := by
    intro i h1 h2 h3
    obtain ⟨-, a1, a3⟩ := hY i h1 h2
    refine lt_of_le_of_ne a1 fun e => a3 ?_
    rw [e, bspline_eq_piece ht hcell1]
    have := piece_upper ht (c := p + n - 1) (p := p) (i := i) (k := 0)
        (fun i h1 h2 => by rw [show p + n - 1 + 1 = p + n by omega]; exact hupp i (by omega) (by omega)) (by omega)
    rwa [show p + n - 1 + 1 = p + n by omega] at this
  obtain ⟨e0, μ, k0, a1, a2, a3, a4, a5, a6, a7⟩ : ∃ e0 μ k0, (e0 = 0 ∨ e0 = 1 ∧ (splinePiece t p (n + p) x p).eval (t p) = 0) ∧
      μ < p ∧ (∀ k, k < μ → (derivative^[k + 1] (splinePiece t p (n + p) x p)).eval (t p) = 0) ∧ k0 + p ≤ e0 + μ + p ∧
      r0 ≤ k0 ∧ (∀ k, k0 ≤ k → k < r1 → t p < Y k) ∧ (e0 = 1 ∨ k0 = r0) := by
    by_cases h0 : 0 < r0
    · exact ⟨1, r0 - 1, r0, .inr ⟨rfl, hder0 0 h0⟩, by omega, fun k hk => hder0 (k + 1) (by omega), by omega, le_rfl,
        fun k h1 h2 => hval0 k h1 h2 h0, .inl rfl⟩
    · obtain rfl : r0 = 0 := by omega
      by_cases g : Y 0 = t p
      · have := hpts 0 le_rfl hr p (by rw [g]; exact hcell0)
        rw [g] at this
        refine ⟨1, 0, 1, .inr ⟨rfl, this⟩, hp, by simp, by omega, by omega, fun k h1 h2 => ?_, .inl rfl⟩
        rw [← g]
        exact hinc _ _ (by omega) (by omega) h2
      · refine ⟨0, 0, 0, .inl rfl, hp, by simp, by omega, le_rfl, fun k h1 h2 => ?_, .inr rfl⟩
        exact (lt_of_le_of_ne (hY 0 le_rfl hr).1 (Ne.symm g)).trans_le (hle _ _ (by omega) (by omega) h2)
  obtain ⟨e1, ν, k1, b1, b2, b3, b4, b5, b6, b7⟩ : ∃ e1 ν k1,
      (e1 = 0 ∨ e1 = 1 ∧ (splinePiece t p (n + p) x (p + n - 1)).eval (t (p + n)) = 0) ∧
      ν < p ∧ (∀ k, k < ν → (derivative^[k + 1] (splinePiece t p (n + p) x (p + n - 1))).eval (t (p + n)) = 0) ∧
      p + n ≤ k1 + (e1 + ν) ∧ k1 ≤ r1 ∧ (∀ k, r0 ≤ k → k < k1 → Y k < t (p + n)) ∧ (e1 = 1 ∨ k1 = r1) := by
    by_cases h0 : r1 < n + p
    · exact ⟨1, n + p - r1 - 1, r1, .inr ⟨rfl, hder1 0 (by omega)⟩, by omega, fun k hk => hder1 (k + 1) (by omega), by omega,
        le_rfl, fun k h1 h2 => hval1 k h1 h2 h0, .inl rfl⟩
    · obtain rfl : r1 = n + p := by omega
      by_cases g : Y (n + p - 1) = t (p + n)
      · have := hpts (n + p - 1) (by omega) (by omega) (p + n - 1) (by rw [g]; exact hcell1)
        rw [g] at this
        refine ⟨1, 0, n + p - 1, .inr ⟨rfl, this⟩, hp, by simp, by omega, by omega, fun k h1 h2 => ?_, .inl rfl⟩
        rw [← g]
        exact hinc _ _ (by omega) (by omega) (by omega)
      · refine ⟨0, 0, n + p, .inl rfl, hp, by simp, by omega, le_rfl, fun k h1 h2 => ?_, .inr rfl⟩
        exact (hle k (n + p - 1) h1 (by omega) (by omega)).trans_lt
          (lt_of_le_of_ne (hY (n + p - 1) (by omega) (by omega)).2.1 g)
  have hz : ∀ c, p ≤ c → c < p + n → splinePiece t p (n + p) x c = 0 := by
    refine schoenberg_whitney ht hp hst (k0 := k0) (k1 := k1) (y := Y)
      (fun k h1 h2 => ?_) (fun i j h1 h2 h3 => hinc _ _ (by omega) h2 (by omega)) a1 b1 a2 b2 a3 b3 a4 b4 (by omega)
    have c1 := a6 k h1 (by omega)
    have c2 := b6 k (by omega) h2
    have := support_inside ht hp hn hst c1 c2 (hY k (by omega) (by omega)).2.2
    refine ⟨c1, c2, this.1, this.2, fun c _ _ c3 c4 => hpts k (by omega) (by omega) c ?_⟩
    rw [InCell, if_pos c2]
    exact ⟨c3, c4⟩
  intro J hJ
  by_cases hJp : J < p
  · exact splinePiece_zero ht (hst p le_rfl (by omega)) le_rfl (by omega) (hz p le_rfl (by omega)) (by omega) (by omega)
  · exact splinePiece_zero ht (hst J (by omega) (by omega)) (by omega) (by omega) (hz J (by omega) (by omega)) (by omega)
      le_rfl

/-- The same over any archimedean field. -/
theorem clamped_unique {K : Type} [Field K] [LinearOrder K] [IsStrictOrderedRing K] [Archimedean K] {t : Nat → K}
    (ht : Monotone t) {p n r0 r1 : Nat} (hp : 0 < p) (hn : 0 < n)
    (hst : ∀ c, p ≤ c → c < p + n → t c < t (c + 1)) (hlow : ∀ i, i ≤ p → t i = t p)
    (hupp : ∀ i, p + n ≤ i → i < p + n + p → t i = t (p + n)) (hr0 : r0 ≤ p) (hr1 : r1 ≤ n + p) (hr1' : n ≤ r1)
    (hr : r0 < r1) {Y : Nat → K} (hinc : ∀ i j, r0 ≤ i → i < j → j < r1 → Y i < Y j)
    (hY : ∀ i, r0 ≤ i → i < r1 → t p ≤ Y i ∧ Y i ≤ t (p + n) ∧ bspline t (t (p + n)) p i (Y i) ≠ 0) {x : Nat → K}
    (hx0 : ∀ J, J < r0 ∨ r1 ≤ J → x J = 0)
    (hx : ∀ i, r0 ≤ i → i < r1 → ∑ J ∈ Finset.range (n + p), bspline t (t (p + n)) p J (Y i) * x J = 0) :
    ∀ J, J < n + p → x J = 0 := by
  obtain ⟨φ, hφ⟩ := exists_real K
  intro J hJ
  have := clamped_real (t := fun k => φ (t k)) (Y := fun k => φ (Y k)) (x := fun k => φ (x k))
    (fun i j hij => hφ.monotone (ht hij)) hp hn (fun c h1 h2 => hφ (hst c h1 h2)) (fun i hi => by rw [hlow i hi])
    (fun i h1 h2 => by rw [hupp i h1 h2]) hr0 hr1 hr1' hr (fun i j h0 h1 h2 => hφ (hinc i j h0 h1 h2))
    (fun i h1 h2 => by
      obtain ⟨a1, a2, a3⟩ := hY i h1 h2
      refine ⟨hφ.monotone a1, hφ.monotone a2, ?_⟩
      rw [map_bspline φ hφ]
      exact (map_ne_zero φ).2 a3)
    (fun J hJ => by rw [hx0 J hJ, map_zero])
    (fun i h1 h2 => by
      simp only [map_bspline φ hφ, ← map_mul]
      rw [← map_sum, hx i h1 h2, map_zero]) J hJ
  exact (map_eq_zero φ).1 this

end DDC.Spec
