import Verif.Lemmas.SplineZeros
import Verif.Spec.WellPosed
import Mathlib.Algebra.Order.Archimedean.Basic
import Mathlib.Algebra.Order.Hom.Ring

/-!
# Well-posed interpolation problems

The conditions of Schoenberg and Whitney are sufficient, over the real numbers and over any archimedean
field.
-/

namespace DDC.Spec

open Polynomial

section
variable {K : Type} [Field K] [LinearOrder K]

/-- A B-spline vanishes at the first knot of its support. -/
theorem piece_first (t : Nat → K) (p j : Nat) : (piece t j (p + 1) j).eval (t j) = 0 := by
  rw [piece_succ, piece_zero t j p (j + 1) (by omega)]
  simp

end

/-- The points of a well-posed problem lie inside the supports. -/
theorem support_inside {t : Nat → ℝ} (ht : Monotone t) {p n : Nat} (hp : 0 < p) (hn : 0 < n)
    (hst : ∀ c, p ≤ c → c < p + n → t c < t (c + 1)) {j : Nat} {x : ℝ} (h1 : t p < x) (h2 : x < t (p + n))
    (h : bspline t (t (p + n)) p j x ≠ 0) : t j < x ∧ x < t (j + p + 1) := by
  obtain ⟨c, c1, c2, c3, c4⟩ := Zeros.exists_cell (u := p) (by omega) h1.le h2
  have hin : InCell t (t (p + n)) x c := by
    rw [InCell, if_pos h2]
    exact ⟨c3, c4⟩
  rw [bspline_eq_piece ht hin] at h
  have hj : j ≤ c ∧ c ≤ j + p := by
    by_contra hcon
    rw [piece_zero t c p j (by omega)] at h
    simp at h
  refine ⟨lt_of_le_of_ne ((ht hj.1).trans c3) fun e => ?_, c4.trans_le (ht (by omega))⟩
  have hjc : j = c := by
    by_contra hne
    have h3 : p ≤ j := by
      by_contra hcon
      exact absurd h1 (not_lt.2 (e ▸ ht (by omega)))
    exact absurd ((hst j h3 (by omega)).trans_le (ht (show j + 1 ≤ c by omega))) (not_lt.2 (e ▸ c3))
  subst hjc
  obtain ⟨p, rfl⟩ : ∃ q, p = q + 1 := ⟨p - 1, by omega⟩
  rw [← e] at h
  exact h (piece_first t p j)

/-- The theorem over the real numbers. -/
theorem schoenberg_whitney_real {t : Nat → ℝ} (ht : Monotone t) {p n lo hi N : Nat} (hp : 0 < p) (hn : 0 < n)
    (hst : ∀ c, p ≤ c → c < p + n → t c < t (c + 1)) (hlo : lo ≤ p / 2) (hhi : hi ≤ p / 2) (hN : lo + N + hi = n + p)
    {X : Nat → ℝ} (hX : SchoenbergWhitney t p n lo hi N X) {h : ℝ} (hh : h ≠ 0) {x : Nat → ℝ}
    (hx : ∀ i, i < n + p → ∑ J ∈ Finset.range (n + p), condition t p n lo N X h i J * x J = 0) :
    ∀ J, J < n + p → x J = 0 := by
  have hN0 : 0 < N := by omega
  have hab : t p < t (p + n) := (hst p le_rfl (by omega)).trans_le (ht (by omega))
  -- the rows
  have hlow : ∀ i, i < lo → (derivative^[i + p % 2] (splinePiece t p (n + p) x p)).eval (t p) = 0 := by
    intro i hi
    have := hx i (by omega)
    simp only [condition, if_pos hi, mul_assoc] at this
    rw [← Finset.mul_sum] at this
    rw [splinePiece_deriv, ← (mul_eq_zero.1 this).resolve_left (pow_ne_zero _ hh)]
    exact Finset.sum_congr rfl fun J _ => mul_comm _ _
  have hupp : ∀ i, i < hi → (derivative^[i + p % 2] (splinePiece t p (n + p) x (p + n - 1))).eval (t (p + n)) = 0 := by
    intro i hi
    have := hx (lo + N + i) (by omega)
    simp only [condition, if_neg (show ¬lo + N + i < lo by omega), if_neg (show ¬lo + N + i < lo + N by omega),
      show lo + N + i - (lo + N) = i by omega, mul_assoc] at this
    rw [← Finset.mul_sum] at this
    rw [splinePiece_deriv, ← (mul_eq_zero.1 this).resolve_left (pow_ne_zero _ hh)]
    exact Finset.sum_congr rfl fun J _ => mul_comm _ _
  have hpts : ∀ k, k < N → ∀ c, InCell t (t (p + n)) (X k) c → (splinePiece t p (n + p) x c).eval (X k) = 0 := by
    intro k hk c hc
    have := hx (lo + k) (by omega)
    simp only [condition, if_neg (show ¬lo + k < lo by omega), if_pos (show lo + k < lo + N by omega),
      show lo + k - lo = k by omega] at this
    rw [splinePiece_eval ht hc, ← this]
    exact Finset.sum_congr rfl fun J _ => mul_comm _ _
  have hcell0 : InCell t (t (p + n)) (t p) p := by
    rw [InCell, if_pos hab]
    exact ⟨le_rfl, hst p le_rfl (by omega)⟩
  have hcell1 : InCell t (t (p + n)) (t (p + n)) (p + n - 1) := by
    rw [InCell, if_neg (lt_irrefl _), show p + n - 1 + 1 = p + n by omega]
    refine ⟨?_, le_rfl⟩
    have := hst (p + n - 1) (by omega) (by omega)
    rwa [show p + n - 1 + 1 = p + n by omega] at this
  have hinc : ∀ i j, i ≤ j → j < N → X i ≤ X j := by
    intro i j hij hj
    rcases hij.eq_or_lt with rfl | hij
    · exact le_rfl
    · exact (hX.increase i j hij hj).le
  obtain ⟨e0, μ, k0, a1, a2, a3, a4, a5, a6, a7⟩ : ∃ e0 μ k0, (e0 = 0 ∨ e0 = 1 ∧ (splinePiece t p (n + p) x p).eval (t p) = 0) ∧
      μ < p ∧ (∀ k, k < μ → (derivative^[k + 1] (splinePiece t p (n + p) x p)).eval (t p) = 0) ∧ k0 + p ≤ e0 + μ + p ∧
      lo ≤ k0 ∧ (∀ k, k0 ≤ k → k < lo + N → t p < X (k - lo)) ∧ (e0 = 1 ∨ k0 = lo) := by
    by_cases hev : 0 < lo ∧ p % 2 = 0
    · have h3 := hX.lower hev.1 hev.2
      refine ⟨1, lo - 1, lo, .inr ⟨rfl, ?_⟩, by omega, fun k hk => ?_, by omega, le_rfl, fun k h1 h2 => ?_, .inl rfl⟩
      · have := hlow 0 hev.1
        rwa [hev.2] at this
      · have := hlow (k + 1) (by omega)
        rwa [hev.2] at this
      · exact (lt_of_le_of_ne (hX.ge 0 hN0) h3.symm).trans_le (hinc _ _ (Nat.zero_le _) (by omega))
    · have hd : ∀ k, k < lo → (derivative^[k + 1] (splinePiece t p (n + p) x p)).eval (t p) = 0 := by
        intro k hk
        have := hlow k hk
        rwa [show p % 2 = 1 by omega] at this
      by_cases g : X 0 = t p
      · have := hpts 0 hN0 p (by rw [g]; exact hcell0)
        rw [g] at this
        refine ⟨1, lo, lo + 1, .inr ⟨rfl, this⟩, by omega, hd, by omega, by omega, fun k h1 h2 => ?_, .inl rfl⟩
        rw [← g]
        exact hX.increase _ _ (by omega) (by omega)
      · refine ⟨0, lo, lo, .inl rfl, by omega, hd, by omega, le_rfl, fun k h1 h2 => ?_, .inr rfl⟩
        exact (lt_of_le_of_ne (hX.ge 0 hN0) (Ne.symm g)).trans_le (hinc _ _ (Nat.zero_le _) (by omega))
  obtain ⟨e1, ν, k1, b1, b2, b3, b4, b5, b6, b7⟩ : ∃ e1 ν k1,
      (e1 = 0 ∨ e1 = 1 ∧ (splinePiece t p (n + p) x (p + n - 1)).eval (t (p + n)) = 0) ∧
      ν < p ∧ (∀ k, k < ν → (derivative^[k + 1] (splinePiece t p (n + p) x (p + n - 1))).eval (t (p + n)) = 0) ∧
      p + n ≤ k1 + (e1 + ν) ∧ k1 ≤ lo + N ∧ (∀ k, lo ≤ k → k < k1 → X (k - lo) < t (p + n)) ∧ (e1 = 1 ∨ k1 = lo + N) := by
    by_cases hev : 0 < hi ∧ p % 2 = 0
    · have h3 := hX.upper hev.1 hev.2
      refine ⟨1, hi - 1, lo + N, .inr ⟨rfl, ?_⟩, by omega, fun k hk => ?_, by omega, le_rfl, fun k h1 h2 => ?_, .inl rfl⟩
      · have := hupp 0 hev.1
        rwa [hev.2] at this
      · have := hupp (k + 1) (by omega)
        rwa [hev.2] at this
      · exact (hinc _ _ (by omega) (by omega)).trans_lt (lt_of_le_of_ne (hX.le (N - 1) (by omega)) h3)
    · have hd : ∀ k, k < hi → (derivative^[k + 1] (splinePiece t p (n + p) x (p + n - 1))).eval (t (p + n)) = 0 := by
        intro k hk
        have := hupp k hk
        rwa [show p % 2 = 1 by omega] at this
      by_cases g : X (N - 1) = t (p + n)
      · have := hpts (N - 1) (by omega) (p + n - 1) (by rw [g]; exact hcell1)
        rw [g] at this
        refine ⟨1, hi, lo + N - 1, .inr ⟨rfl, this⟩, by omega, hd, by omega, by omega, fun k h1 h2 => ?_, .inl rfl⟩
        rw [← g]
        exact hX.increase _ _ (by omega) (by omega)
      · refine ⟨0, hi, lo + N, .inl rfl, by omega, hd, by omega, le_rfl, fun k h1 h2 => ?_, .inr rfl⟩
        exact (hinc _ _ (by omega) (by omega)).trans_lt (lt_of_le_of_ne (hX.le (N - 1) (by omega)) g)
  have hz : ∀ c, p ≤ c → c < p + n → splinePiece t p (n + p) x c = 0 := by
    refine schoenberg_whitney ht hp hst (k0 := k0) (k1 := k1) (y := fun k => X (k - lo))
      (fun k h1 h2 => ?_) (fun i j h1 h2 h3 => hX.increase _ _ (by omega) (by omega)) a1 b1 a2 b2 a3 b3 a4 b4 (by omega)
    have hk : k - lo < N := by omega
    have c1 := a6 k h1 (by omega)
    have c2 := b6 k (by omega) h2
    have := support_inside ht hp hn hst c1 c2 (hX.support _ hk)
    rw [show lo + (k - lo) = k by omega] at this
    refine ⟨c1, c2, this.1, this.2, fun c _ _ c3 c4 => hpts _ hk c ?_⟩
    rw [InCell, if_pos c2]
    exact ⟨c3, c4⟩
  intro J hJ
  by_cases hJp : J < p
  · exact splinePiece_zero ht (hst p le_rfl (by omega)) le_rfl (by omega) (hz p le_rfl (by omega)) (by omega) (by omega)
  · exact splinePiece_zero ht (hst J (by omega) (by omega)) (by omega) (by omega) (hz J (by omega) (by omega)) (by omega)
      le_rfl

/-! ## Change of field -/

section
variable {K : Type} [Field K] [LinearOrder K] [IsStrictOrderedRing K] (φ : K →+* ℝ) (hφ : StrictMono φ)

theorem map_piece (t : Nat → K) (c p i : Nat) : (piece t c p i).map φ = piece (fun k => φ (t k)) c p i := by
  induction p generalizing i with
  | zero => rw [piece, piece]; split_ifs <;> simp
  | succ p ih =>
    rw [piece_succ, piece_succ]
    simp only [Polynomial.map_add, Polynomial.map_mul, Polynomial.map_sub, map_C, map_X, ih, map_div₀, map_sub, map_one]

include hφ in
theorem map_inCell (t : Nat → K) (b x : K) (i : Nat) : InCell (fun k => φ (t k)) (φ b) (φ x) i ↔ InCell t b x i := by
  simp only [InCell, hφ.lt_iff_lt, hφ.le_iff_le]

include hφ in
theorem map_bspline (t : Nat → K) (b x : K) (p i : Nat) :
    bspline (fun k => φ (t k)) (φ b) p i (φ x) = φ (bspline t b p i x) := by
  induction p generalizing i with
  | zero =>
    rw [bspline, bspline]
    simp only [map_inCell φ hφ]
    split_ifs <;> simp
  | succ p ih =>
    rw [bspline, bspline, ih, ih]
    simp only [map_add, map_mul, map_div₀, map_sub]

theorem map_basisDeriv (t : Nat → K) (p c k J : Nat) (x : K) :
    basisDeriv (fun k => φ (t k)) p c k J (φ x) = φ (basisDeriv t p c k J x) := by
  rw [basisDeriv, basisDeriv, ← map_piece, iterate_derivative_map, eval_map, eval₂_at_apply]

include hφ in
theorem map_condition (t : Nat → K) (p n lo N : Nat) (X : Nat → K) (h : K) (i J : Nat) :
    condition (fun k => φ (t k)) p n lo N (fun k => φ (X k)) (φ h) i J = φ (condition t p n lo N X h i J) := by
  simp only [condition]
  split_ifs
  · rw [map_basisDeriv, map_mul, map_pow]
  · rw [map_bspline φ hφ]
  · rw [map_basisDeriv, map_mul, map_pow]

end

theorem exists_real (K : Type) [Field K] [LinearOrder K] [IsStrictOrderedRing K] [Archimedean K] :
    ∃ φ : K →+* ℝ, StrictMono φ := by
  let ψ := ConditionallyCompleteLinearOrderedField.inducedOrderRingHom K ℝ
  exact ⟨ψ, ψ.monotone'.strictMono_of_injective (RingHom.injective (ψ : K →+* ℝ))⟩

/-- The Schoenberg–Whitney theorem: an interpolation problem that satisfies the conditions has only the zero
solution for zero data. -/
theorem SchoenbergWhitney.unique {K : Type} [Field K] [LinearOrder K] [IsStrictOrderedRing K] [Archimedean K]
    {t : Nat → K} (ht : Monotone t) {p n lo hi N : Nat} (hp : 0 < p) (hn : 0 < n)
    (hst : ∀ c, p ≤ c → c < p + n → t c < t (c + 1)) (hlo : lo ≤ p / 2) (hhi : hi ≤ p / 2) (hN : lo + N + hi = n + p)
    {X : Nat → K} (hX : SchoenbergWhitney t p n lo hi N X) {h : K} (hh : h ≠ 0) {x : Nat → K}
    (hx : ∀ i, i < n + p → ∑ J ∈ Finset.range (n + p), condition t p n lo N X h i J * x J = 0) :
    ∀ J, J < n + p → x J = 0 := by
  obtain ⟨φ, hφ⟩ := exists_real K
  intro J hJ
  have hinj := hφ.injective
  have := schoenberg_whitney_real (t := fun k => φ (t k)) (X := fun k => φ (X k)) (h := φ h) (x := fun k => φ (x k))
    (fun i j hij => hφ.monotone (ht hij)) hp hn (fun c h1 h2 => hφ (hst c h1 h2)) hlo hhi hN
    ⟨fun i j h1 h2 => hφ (hX.increase i j h1 h2), fun k hk => hφ.monotone (hX.ge k hk), fun k hk => hφ.monotone (hX.le k hk),
      fun k hk => by
        rw [map_bspline φ hφ]
        exact (map_ne_zero φ).2 (hX.support k hk), fun h1 h2 => hinj.ne (hX.lower h1 h2),
      fun h1 h2 => hinj.ne (hX.upper h1 h2)⟩ ((map_ne_zero φ).2 hh) (fun i hi => by
      simp only [map_condition φ hφ, ← map_mul]
      rw [← map_sum, hx i hi, map_zero]) J hJ
  exact (map_eq_zero φ).1 this

end DDC.Spec
