import Verif.Lemmas.Solve
import Verif.Lemmas.RoundedNear

/-!
# Residuals of block elimination

How the residuals of the parts of a block elimination add up to the residual of the whole system.
-/

namespace DDC

open Finset

/-- Sum of absolute values. -/
def norm1 (n : Nat) (x : Nat → Rat) : Rat := ∑ j ∈ range n, |x j|

theorem norm1_nonneg (n : Nat) (x : Nat → Rat) : 0 ≤ norm1 n x := sum_nonneg fun _ _ => abs_nonneg _

theorem le_norm1 {n : Nat} {x : Nat → Rat} {j : Nat} (h : j < n) : |x j| ≤ norm1 n x :=
  single_le_sum (f := fun j => |x j|) (fun _ _ => abs_nonneg _) (mem_range.2 h)

/-- A product with bounded coefficients. -/
theorem dot_le {n : Nat} {a x : Nat → Rat} {A : Rat} (h : ∀ j, j < n → |a j| ≤ A) :
    |∑ j ∈ range n, a j * x j| ≤ A * norm1 n x := by
  rw [norm1, mul_sum]
  refine (abs_sum_le_sum_abs _ _).trans (sum_le_sum fun j hj => ?_)
  rw [abs_mul]
  exact mul_le_mul_of_nonneg_right (h j (mem_range.1 hj)) (abs_nonneg _)

theorem dotAbs_le {n : Nat} {a x : Nat → Rat} {A : Rat} (h : ∀ j, j < n → |a j| ≤ A) :
    ∑ j ∈ range n, |a j| * |x j| ≤ A * norm1 n x := by
  rw [norm1, mul_sum]
  exact sum_le_sum fun j hj => mul_le_mul_of_nonneg_right (h j (mem_range.1 hj)) (abs_nonneg _)

/-- The same with the coefficients and the bounded factor exchanged. -/
theorem dot_le' {n : Nat} {a x : Nat → Rat} {M : Rat} (h : ∀ j, j < n → |x j| ≤ M) :
    |∑ j ∈ range n, a j * x j| ≤ M * norm1 n a := by
  rw [sum_congr rfl fun j _ => mul_comm (a j) (x j)]
  exact dot_le h

/-- The columns of a matrix. -/
theorem cols_le {n m : Nat} {T : Nat → Nat → Rat} {z : Nat → Rat} {B : Rat}
    (h : ∀ c, c < m → norm1 n (fun j => T j c) ≤ B) :
    ∑ j ∈ range n, ∑ c ∈ range m, |T j c| * |z c| ≤ B * norm1 m z := by
  rw [sum_comm, norm1, mul_sum]
  refine sum_le_sum fun c hc => ?_
  rw [← sum_mul]
  exact mul_le_mul_of_nonneg_right (h c (mem_range.1 hc)) (abs_nonneg _)

/-- The data of the set-up of a block matrix: `T` is what was computed for `Q⁻¹ γ`, `Tt` and `blt` are the blocks without
the small entries, `S` is the Schur complement. -/
structure BlockData (nq m : Nat) (Q tr bl br T Tt blt S : Nat → Nat → Rat) (a g ρ τ B : Rat) : Prop where
  a0 : 0 ≤ a
  g0 : 0 ≤ g
  g1 : g ≤ 1 / 16
  ρ0 : 0 ≤ ρ
  τ0 : 0 ≤ τ
  B0 : 0 ≤ B
  Q_le : ∀ i j, i < nq → j < nq → |Q i j| ≤ a
  bl_le : ∀ i j, i < m → j < nq → |bl i j| ≤ a
  br_le : ∀ i j, i < m → j < m → |br i j| ≤ a
  T_res : ∀ i c, i < nq → c < m → |∑ l ∈ range nq, Q i l * T l c - tr i c| ≤ ρ * norm1 nq (fun l => T l c)
  T_near : ∀ l c, |T l c - Tt l c| ≤ τ
  bl_near : ∀ i l, |bl i l - blt i l| ≤ τ
  blt_le : ∀ i j, i < m → j < nq → |blt i j| ≤ a
  cols : ∀ c, c < m → norm1 nq (fun l => Tt l c) ≤ B
  S_near : ∀ i c, i < m → c < m → |S i c - (br i c - ∑ l ∈ range nq, bl i l * T l c)| ≤
    g * (|br i c| + ∑ l ∈ range nq, |bl i l| * |T l c|)

namespace BlockData

variable {nq m : Nat} {Q tr bl br T Tt blt S : Nat → Nat → Rat} {a g ρ τ B : Rat}

theorem T_cols (h : BlockData nq m Q tr bl br T Tt blt S a g ρ τ B) (c : Nat) (hc : c < m) :
    norm1 nq (fun l => T l c) ≤ B + nq * τ := by
  have h1 : norm1 nq (fun l => T l c) ≤ ∑ l ∈ range nq, (|Tt l c| + τ) := by
    refine sum_le_sum fun l _ => ?_
    have := abs_sub_abs_le_abs_sub (T l c) (Tt l c)
    have := h.T_near l c
    linarith
  rw [sum_add_distrib, sum_const, card_range, nsmul_eq_mul] at h1
  have := h.cols c hc
  rw [norm1] at this
  linarith

theorem S_err (h : BlockData nq m Q tr bl br T Tt blt S a g ρ τ B) (i c : Nat) (hi : i < m) (hc : c < m) :
    |S i c - (br i c - ∑ l ∈ range nq, bl i l * T l c)| ≤ g * (a * (1 + (B + nq * τ))) := by
  refine (h.S_near i c hi hc).trans (mul_le_mul_of_nonneg_left ?_ h.g0)
  have h1 := dotAbs_le (x := fun l => T l c) (fun j hj => h.bl_le i j hi hj)
  have h2 := mul_le_mul_of_nonneg_left (h.T_cols c hc) h.a0
  have h3 := h.br_le i c hi hc
  linarith

theorem S_le (h : BlockData nq m Q tr bl br T Tt blt S a g ρ τ B) (i c : Nat) (hi : i < m) (hc : c < m) :
    |S i c| ≤ (1 + g) * (a * (1 + (B + nq * τ))) := by
  have h1 := h.S_err i c hi hc
  have h2 := abs_sub_abs_le_abs_sub (S i c) (br i c - ∑ l ∈ range nq, bl i l * T l c)
  have h3 := abs_sub (br i c) (∑ l ∈ range nq, bl i l * T l c)
  have h4 := dot_le (x := fun l => T l c) (fun j hj => h.bl_le i j hi hj)
  have h5 := mul_le_mul_of_nonneg_left (h.T_cols c hc) h.a0
  have h6 := h.br_le i c hi hc
  linarith

/-- Residual of the direct system. -/
theorem direct (h : BlockData nq m Q tr bl br T Tt blt S a g ρ τ B) {ρS : Rat} (hρS : 0 ≤ ρS) {x y z w b b2 : Nat → Rat}
    (hy : ∀ i, i < nq → |∑ j ∈ range nq, Q i j * y j - b i| ≤ ρ * norm1 nq y)
    (hw : ∀ i, i < m → |w i - (b2 i - ∑ k ∈ range nq, blt i k * y k)| ≤
      g * (|w i| + ∑ k ∈ range nq, |blt i k| * |y k|))
    (hz : ∀ i, i < m → |∑ c ∈ range m, S i c * z c - w i| ≤ ρS * norm1 m z)
    (hx : ∀ j, j < nq → |x j - (y j - ∑ c ∈ range m, Tt j c * z c)| ≤ g * (|x j| + ∑ c ∈ range m, |Tt j c| * |z c|)) :
    (∀ i, i < nq → |∑ j ∈ range nq, Q i j * x j + ∑ c ∈ range m, tr i c * z c - b i| ≤
      (4 * (ρ + ρS) + 9 / 2 * a * g + 2 * (1 + a * nq) * τ) * (1 + (B + nq * τ)) * (norm1 nq x + norm1 m z)) ∧
    ∀ i, i < m → |∑ j ∈ range nq, bl i j * x j + ∑ c ∈ range m, br i c * z c - b2 i| ≤
      (4 * (ρ + ρS) + 9 / 2 * a * g + 2 * (1 + a * nq) * τ) * (1 + (B + nq * τ)) * (norm1 nq x + norm1 m z) := by
  obtain ⟨X, hX⟩ : ∃ X, X = norm1 nq x := ⟨_, rfl⟩
  obtain ⟨Y, hY⟩ : ∃ Y, Y = norm1 nq y := ⟨_, rfl⟩
  obtain ⟨Z, hZ⟩ : ∃ Z, Z = norm1 m z := ⟨_, rfl⟩
  have X0 : 0 ≤ X := hX ▸ norm1_nonneg _ _
  have Y0 : 0 ≤ Y := hY ▸ norm1_nonneg _ _
  have Z0 : 0 ≤ Z := hZ ▸ norm1_nonneg _ _
  obtain ⟨a0, g0, g1, ρ0, τ0, B0⟩ := And.intro h.a0 (And.intro h.g0 (And.intro h.g1 (And.intro h.ρ0 (And.intro h.τ0 h.B0))))
  obtain ⟨C, hC⟩ : ∃ C, C = 1 + (B + nq * τ) := ⟨_, rfl⟩
  have n0 : (0 : Rat) ≤ nq := Nat.cast_nonneg _
  have nτ : 0 ≤ nq * τ := mul_nonneg n0 τ0
  have C1 : 1 ≤ C := by rw [hC]; linarith
  obtain ⟨P, hP⟩ : ∃ P, P = C * (X + Z) := ⟨_, rfl⟩
  have P0 : 0 ≤ P := by rw [hP]; positivity
  have XZP : X + Z ≤ P := by rw [hP]; exact le_mul_of_one_le_left (by linarith) C1
  have CZP : C * Z ≤ P := by rw [hP]; exact mul_le_mul_of_nonneg_left (by linarith) (by linarith)
  have BZ0 : 0 ≤ B * Z := mul_nonneg B0 Z0
  have XBZ : X + B * Z ≤ P := by
    have e : P = X + B * Z + Z + (B + nq * τ) * X + nq * τ * Z := by rw [hP, hC]; ring
    have := mul_nonneg (add_nonneg B0 nτ) X0
    have := mul_nonneg nτ Z0
    linarith
  obtain ⟨e, he⟩ : ∃ e : Nat → Rat, ∀ j, e j = x j - (y j - ∑ c ∈ range m, Tt j c * z c) := ⟨_, fun _ => rfl⟩
  have hcz := cols_le (z := z) h.cols
  have hE : norm1 nq e ≤ g * (X + B * Z) := by
    calc norm1 nq e ≤ ∑ j ∈ range nq, g * (|x j| + ∑ c ∈ range m, |Tt j c| * |z c|) :=
          sum_le_sum fun j hj => by rw [he]; exact hx j (mem_range.1 hj)
      _ = g * (X + ∑ j ∈ range nq, ∑ c ∈ range m, |Tt j c| * |z c|) := by
          rw [← mul_sum, sum_add_distrib, hX, norm1]
      _ ≤ _ := mul_le_mul_of_nonneg_left (by rw [hZ]; linarith) g0
  have hEP : norm1 nq e ≤ g * P := hE.trans (mul_le_mul_of_nonneg_left XBZ g0)
  have hYP : Y ≤ (1 + g) * P := by
    have : Y ≤ X + B * Z + norm1 nq e := by
      calc Y ≤ ∑ j ∈ range nq, (|x j| + ∑ c ∈ range m, |Tt j c| * |z c| + |e j|) := by
            rw [hY]
            refine sum_le_sum fun j _ => ?_
            have e1 : y j = x j + ∑ c ∈ range m, Tt j c * z c - e j := by rw [he]; ring
            have e2 : |∑ c ∈ range m, Tt j c * z c| ≤ ∑ c ∈ range m, |Tt j c| * |z c| :=
              (abs_sum_le_sum_abs _ _).trans (sum_le_sum fun c _ => (abs_mul _ _).le)
            rw [e1]
            have := abs_sub (x j + ∑ c ∈ range m, Tt j c * z c) (e j)
            have := abs_add_le (x j) (∑ c ∈ range m, Tt j c * z c)
            linarith
        _ = X + ∑ j ∈ range nq, ∑ c ∈ range m, |Tt j c| * |z c| + norm1 nq e := by
            rw [sum_add_distrib, sum_add_distrib, hX, norm1, norm1]
        _ ≤ _ := by rw [hZ]; linarith
    linarith
  -- the effect of the small entries of `T`
  have hD : ∀ q : Nat → Rat, (∀ j, j < nq → |q j| ≤ a) →
      |∑ j ∈ range nq, q j * ∑ c ∈ range m, (T j c - Tt j c) * z c| ≤ a * nq * τ * P := by
    intro q hq
    have h1 : ∀ j, |∑ c ∈ range m, (T j c - Tt j c) * z c| ≤ τ * Z := fun j => by
      rw [hZ]; exact dot_le fun c _ => h.T_near j c
    have h2 : norm1 nq (fun j => ∑ c ∈ range m, (T j c - Tt j c) * z c) ≤ nq * (τ * Z) := by
      calc _ ≤ ∑ _j ∈ range nq, τ * Z := sum_le_sum fun j _ => h1 j
        _ = _ := by rw [sum_const, card_range, nsmul_eq_mul]
    calc _ ≤ a * norm1 nq (fun j => ∑ c ∈ range m, (T j c - Tt j c) * z c) := dot_le hq
      _ ≤ a * (nq * (τ * Z)) := mul_le_mul_of_nonneg_left h2 a0
      _ = a * nq * τ * Z := by ring
      _ ≤ _ := mul_le_mul_of_nonneg_left (by linarith) (by positivity)
  have sw : ∀ q : Nat → Rat, ∑ c ∈ range m, (∑ l ∈ range nq, q l * T l c) * z c =
      ∑ j ∈ range nq, q j * ∑ c ∈ range m, T j c * z c := fun q => (sum_swap nq m q T z).symm
  have split : ∀ q : Nat → Rat, ∑ j ∈ range nq, q j * x j = ∑ j ∈ range nq, q j * e j + ∑ j ∈ range nq, q j * y j +
      ∑ j ∈ range nq, q j * (∑ c ∈ range m, (T j c - Tt j c) * z c) - ∑ c ∈ range m, (∑ l ∈ range nq, q l * T l c) * z c := by
    intro q
    rw [sw, ← sum_add_distrib, ← sum_add_distrib, ← sum_sub_distrib]
    refine sum_congr rfl fun j _ => ?_
    have : ∑ c ∈ range m, (T j c - Tt j c) * z c = ∑ c ∈ range m, T j c * z c - ∑ c ∈ range m, Tt j c * z c := by
      rw [← sum_sub_distrib]; exact sum_congr rfl fun c _ => by ring
    rw [this, he]
    ring
  have gP : 0 ≤ g * P := mul_nonneg g0 P0
  have ρP : 0 ≤ ρ * P := mul_nonneg ρ0 P0
  have ρSP : 0 ≤ ρS * P := mul_nonneg hρS P0
  have τP : 0 ≤ τ * P := mul_nonneg τ0 P0
  have agP : 0 ≤ a * (g * P) := mul_nonneg a0 gP
  have aτP : 0 ≤ a * nq * τ * P := by positivity
  have ρgP : ρ * (g * P) ≤ 1 / 16 * (ρ * P) := by
    have := mul_le_mul_of_nonneg_left g1 ρP; linarith
  have ρSgP : ρS * (g * P) ≤ 1 / 16 * (ρS * P) := by
    have := mul_le_mul_of_nonneg_left g1 ρSP; linarith
  have τgP : τ * (g * P) ≤ 1 / 16 * (τ * P) := by
    have := mul_le_mul_of_nonneg_left g1 τP; linarith
  have aggP : a * (g * (g * P)) ≤ 1 / 16 * (a * (g * P)) := by
    have := mul_le_mul_of_nonneg_left g1 agP; linarith
  have goal_eq : (4 * (ρ + ρS) + 9 / 2 * a * g + 2 * (1 + a * nq) * τ) * (1 + (B + nq * τ)) * (X + Z) =
      4 * (ρ * P) + 4 * (ρS * P) + 9 / 2 * (a * (g * P)) + 2 * (τ * P) + 2 * (a * nq * τ * P) := by
    rw [hP, hC]; ring
  rw [← hX, ← hZ, goal_eq]
  rw [← hY] at hy
  rw [← hZ] at hz
  constructor
  · intro i hi
    have t1 : |∑ j ∈ range nq, Q i j * e j| ≤ a * (g * P) :=
      (dot_le fun j hj => h.Q_le i j hi hj).trans (mul_le_mul_of_nonneg_left hEP a0)
    have t2 : |∑ j ∈ range nq, Q i j * y j - b i| ≤ ρ * ((1 + g) * P) :=
      (hy i hi).trans (mul_le_mul_of_nonneg_left hYP ρ0)
    have t3 := hD (Q i) (fun j hj => h.Q_le i j hi hj)
    have t4 : |∑ c ∈ range m, (∑ l ∈ range nq, Q i l * T l c - tr i c) * z c| ≤ ρ * P := by
      refine (dot_le (A := ρ * C) fun c hc => ?_).trans ?_
      · refine (h.T_res i c hi hc).trans (mul_le_mul_of_nonneg_left ?_ ρ0)
        have := h.T_cols c hc
        linarith
      · rw [mul_assoc, ← hZ]; exact mul_le_mul_of_nonneg_left CZP ρ0
    have e4 : ∑ c ∈ range m, (∑ l ∈ range nq, Q i l * T l c - tr i c) * z c =
        ∑ c ∈ range m, (∑ l ∈ range nq, Q i l * T l c) * z c - ∑ c ∈ range m, tr i c * z c := by
      rw [← sum_sub_distrib]; exact sum_congr rfl fun c _ => by ring
    rw [e4] at t4
    rw [split, abs_le]
    rw [abs_le] at t1 t2 t3 t4
    constructor <;> linarith
  · intro i hi
    have t1 : |∑ j ∈ range nq, bl i j * e j| ≤ a * (g * P) :=
      (dot_le fun j hj => h.bl_le i j hi hj).trans (mul_le_mul_of_nonneg_left hEP a0)
    have t2 : |∑ j ∈ range nq, (bl i j - blt i j) * y j| ≤ τ * ((1 + g) * P) :=
      (dot_le fun j hj => h.bl_near i j).trans (mul_le_mul_of_nonneg_left (hY ▸ hYP) τ0)
    have e2 : ∑ j ∈ range nq, (bl i j - blt i j) * y j = ∑ j ∈ range nq, bl i j * y j - ∑ j ∈ range nq, blt i j * y j := by
      rw [← sum_sub_distrib]; exact sum_congr rfl fun c _ => by ring
    have t3 := hD (bl i) (fun j hj => h.bl_le i j hi hj)
    have t4 : |∑ c ∈ range m, S i c * z c - w i| ≤ ρS * P :=
      (hz i hi).trans (mul_le_mul_of_nonneg_left (by linarith) hρS)
    have t5 : |∑ c ∈ range m, (S i c - (br i c - ∑ l ∈ range nq, bl i l * T l c)) * z c| ≤ a * (g * P) := by
      refine (dot_le fun c hc => h.S_err i c hi hc).trans ?_
      rw [← hC, ← hZ]
      calc g * (a * C) * Z = a * (g * (C * Z)) := by ring
        _ ≤ _ := mul_le_mul_of_nonneg_left (mul_le_mul_of_nonneg_left CZP g0) a0
    have e5 : ∑ c ∈ range m, (S i c - (br i c - ∑ l ∈ range nq, bl i l * T l c)) * z c =
        ∑ c ∈ range m, S i c * z c - ∑ c ∈ range m, br i c * z c +
          ∑ c ∈ range m, (∑ l ∈ range nq, bl i l * T l c) * z c := by
      rw [← sum_sub_distrib, ← sum_add_distrib]; exact sum_congr rfl fun c _ => by ring
    have t6 : |∑ c ∈ range m, S i c * z c| ≤ (1 + g) * (a * P) := by
      refine (dot_le fun c hc => h.S_le i c hi hc).trans ?_
      rw [← hC, ← hZ]
      calc (1 + g) * (a * C) * Z = (1 + g) * (a * (C * Z)) := by ring
        _ ≤ _ := mul_le_mul_of_nonneg_left (mul_le_mul_of_nonneg_left CZP a0) (by linarith)
    have t7 : |w i| ≤ (1 + g) * (a * P) + ρS * P := by
      have := abs_sub_abs_le_abs_sub (w i) (∑ c ∈ range m, S i c * z c)
      rw [abs_sub_comm] at this
      linarith
    have t8 : ∑ k ∈ range nq, |blt i k| * |y k| ≤ a * ((1 + g) * P) :=
      (dotAbs_le fun j hj => h.blt_le i j hi hj).trans (mul_le_mul_of_nonneg_left (hY ▸ hYP) a0)
    have t9 : |w i - (b2 i - ∑ k ∈ range nq, blt i k * y k)| ≤
        g * ((1 + g) * (a * P) + ρS * P + a * ((1 + g) * P)) :=
      (hw i hi).trans (mul_le_mul_of_nonneg_left (by linarith) g0)
    rw [e2] at t2
    rw [e5] at t5
    rw [split, abs_le]
    rw [abs_le] at t1 t2 t3 t4 t5 t9
    constructor <;> linarith

/-- Residual of the transposed system. -/
theorem transposed (h : BlockData nq m Q tr bl br T Tt blt S a g ρ τ B) {ρS : Rat} (hρS : 0 ≤ ρS)
    {x v z w b b2 : Nat → Rat}
    (hw : ∀ c, c < m → |w c - (b2 c - ∑ l ∈ range nq, Tt l c * b l)| ≤
      g * (|w c| + ∑ l ∈ range nq, |Tt l c| * |b l|))
    (hz : ∀ i, i < m → |∑ c ∈ range m, S c i * z c - w i| ≤ ρS * norm1 m z)
    (hv : ∀ l, l < nq → |v l - (b l - ∑ c ∈ range m, blt c l * z c)| ≤ g * (|v l| + ∑ c ∈ range m, |blt c l| * |z c|))
    (hx : ∀ l, l < nq → |∑ j ∈ range nq, Q j l * x j - v l| ≤ ρ * norm1 nq x) :
    (∀ l, l < nq → |∑ j ∈ range nq, Q j l * x j + ∑ c ∈ range m, bl c l * z c - b l| ≤
      (4 * (ρ + ρS) + 9 / 2 * a * g + 2 * (1 + a * nq) * τ) * (1 + (B + nq * τ)) * (norm1 nq x + norm1 m z)) ∧
    ∀ c, c < m → |∑ l ∈ range nq, tr l c * x l + ∑ d ∈ range m, br d c * z d - b2 c| ≤
      (4 * (ρ + ρS) + 9 / 2 * a * g + 2 * (1 + a * nq) * τ) * (1 + (B + nq * τ)) * (norm1 nq x + norm1 m z) := by
  obtain ⟨X, hX⟩ : ∃ X, X = norm1 nq x := ⟨_, rfl⟩
  obtain ⟨Z, hZ⟩ : ∃ Z, Z = norm1 m z := ⟨_, rfl⟩
  have X0 : 0 ≤ X := hX ▸ norm1_nonneg _ _
  have Z0 : 0 ≤ Z := hZ ▸ norm1_nonneg _ _
  obtain ⟨a0, g0, g1, ρ0, τ0, B0⟩ := And.intro h.a0 (And.intro h.g0 (And.intro h.g1 (And.intro h.ρ0 (And.intro h.τ0 h.B0))))
  obtain ⟨C, hC⟩ : ∃ C, C = 1 + (B + nq * τ) := ⟨_, rfl⟩
  have n0 : (0 : Rat) ≤ nq := Nat.cast_nonneg _
  have nτ : 0 ≤ nq * τ := mul_nonneg n0 τ0
  have C1 : 1 ≤ C := by rw [hC]; linarith
  obtain ⟨W, hW⟩ : ∃ W, W = X + Z := ⟨_, rfl⟩
  have W0 : 0 ≤ W := by linarith
  obtain ⟨P, hP⟩ : ∃ P, P = C * W := ⟨_, rfl⟩
  have P0 : 0 ≤ P := by rw [hP]; positivity
  have WP : W ≤ P := by rw [hP]; exact le_mul_of_one_le_left W0 C1
  have CZP : C * Z ≤ P := by rw [hP]; exact mul_le_mul_of_nonneg_left (by linarith) (by linarith)
  have PW : P = W + B * W + nq * τ * W := by rw [hP, hC]; ring
  have BW0 : 0 ≤ B * W := mul_nonneg B0 W0
  have nW0 : 0 ≤ nq * τ * W := mul_nonneg nτ W0
  rw [← hX] at hx
  rw [← hZ] at hz
  -- products of the constants
  have gP : 0 ≤ g * P := mul_nonneg g0 P0
  have ρP : 0 ≤ ρ * P := mul_nonneg ρ0 P0
  have ρSP : 0 ≤ ρS * P := mul_nonneg hρS P0
  have τP : 0 ≤ τ * P := mul_nonneg τ0 P0
  have agP : 0 ≤ a * (g * P) := mul_nonneg a0 gP
  have aτP : 0 ≤ a * nq * τ * P := by positivity
  have ρgP : ρ * (g * P) ≤ 1 / 16 * (ρ * P) := by
    have := mul_le_mul_of_nonneg_left g1 ρP; linarith
  have ρSgP : ρS * (g * P) ≤ 1 / 16 * (ρS * P) := by
    have := mul_le_mul_of_nonneg_left g1 ρSP; linarith
  have aggP : a * (g * (g * P)) ≤ 1 / 16 * (a * (g * P)) := by
    have := mul_le_mul_of_nonneg_left g1 agP; linarith
  have ρggP : ρ * (g * (g * P)) ≤ 1 / 16 * (ρ * (g * P)) := by
    have := mul_le_mul_of_nonneg_left g1 (mul_nonneg ρ0 gP); linarith
  have aτgP : a * nq * τ * (g * P) ≤ 1 / 16 * (a * nq * τ * P) := by
    have := mul_le_mul_of_nonneg_left g1 aτP; linarith
  -- the right-hand sides
  have hvl : ∀ l, l < nq → |v l| ≤ (a + ρ) * X := by
    intro l hl
    have h1 : |∑ j ∈ range nq, Q j l * x j| ≤ a * X := by rw [hX]; exact dot_le fun j hj => h.Q_le j l hj hl
    have h2 := abs_sub_abs_le_abs_sub (v l) (∑ j ∈ range nq, Q j l * x j)
    rw [abs_sub_comm] at h2
    have := hx l hl
    linarith
  have hbz : ∀ l, l < nq → ∑ c ∈ range m, |blt c l| * |z c| ≤ a * Z := fun l hl => by
    rw [hZ]; exact dotAbs_le fun c hc => h.blt_le c l hc hl
  have he : ∀ l, l < nq → |v l - (b l - ∑ c ∈ range m, blt c l * z c)| ≤ g * ((a + ρ) * W) := by
    intro l hl
    refine (hv l hl).trans (mul_le_mul_of_nonneg_left ?_ g0)
    have h1 := hvl l hl
    have h2 := hbz l hl
    have h3 : 0 ≤ ρ * Z := mul_nonneg ρ0 Z0
    rw [hW]
    linarith
  have hb : ∀ l, l < nq → |b l| ≤ (1 + g) * ((a + ρ) * W) := by
    intro l hl
    have h1 := hvl l hl
    have h2 := hbz l hl
    have h3 := he l hl
    have h4 : |∑ c ∈ range m, blt c l * z c| ≤ ∑ c ∈ range m, |blt c l| * |z c| :=
      (abs_sum_le_sum_abs _ _).trans (sum_le_sum fun c _ => (abs_mul _ _).le)
    have h5 : 0 ≤ ρ * Z := mul_nonneg ρ0 Z0
    have h6 : (a + ρ) * W = (a + ρ) * X + a * Z + ρ * Z := by rw [hW]; ring
    have h7 : b l = v l + ∑ c ∈ range m, blt c l * z c - (v l - (b l - ∑ c ∈ range m, blt c l * z c)) := by ring
    have h8 := abs_sub (v l + ∑ c ∈ range m, blt c l * z c) (v l - (b l - ∑ c ∈ range m, blt c l * z c))
    rw [← h7] at h8
    have h9 := abs_add_le (v l) (∑ c ∈ range m, blt c l * z c)
    linarith
  have hr : ∀ l, l < nq → |∑ j ∈ range nq, Q j l * x j + ∑ c ∈ range m, bl c l * z c - b l| ≤
      ((1 + g) * ρ + g * a + τ) * W := by
    intro l hl
    have h1 := hx l hl
    have h2 := he l hl
    have h3 : |∑ c ∈ range m, (bl c l - blt c l) * z c| ≤ τ * Z := by rw [hZ]; exact dot_le fun c _ => h.bl_near c l
    have e3 : ∑ c ∈ range m, (bl c l - blt c l) * z c = ∑ c ∈ range m, bl c l * z c - ∑ c ∈ range m, blt c l * z c := by
      rw [← sum_sub_distrib]; exact sum_congr rfl fun c _ => by ring
    rw [e3] at h3
    have h4 : 0 ≤ ρ * Z := mul_nonneg ρ0 Z0
    have h5 : 0 ≤ τ * X := mul_nonneg τ0 X0
    have h6 : ((1 + g) * ρ + g * a + τ) * W = g * ((a + ρ) * W) + ρ * X + ρ * Z + τ * X + τ * Z := by rw [hW]; ring
    rw [h6]
    rw [abs_le] at h1 h2 h3 ⊢
    constructor <;> linarith
  have goal_eq : (4 * (ρ + ρS) + 9 / 2 * a * g + 2 * (1 + a * nq) * τ) * (1 + (B + nq * τ)) * (X + Z) =
      4 * (ρ * P) + 4 * (ρS * P) + 9 / 2 * (a * (g * P)) + 2 * (τ * P) + 2 * (a * nq * τ * P) := by
    rw [hP, hC, hW]; ring
  rw [← hX, ← hZ, goal_eq]
  constructor
  · intro l hl
    refine (hr l hl).trans ?_
    have := mul_le_mul_of_nonneg_left WP (show 0 ≤ (1 + g) * ρ + g * a + τ by positivity)
    linarith
  · intro c hc
    have sw : ∑ j ∈ range nq, T j c * ∑ l ∈ range nq, Q l j * x l =
        ∑ l ∈ range nq, (∑ j ∈ range nq, Q l j * T j c) * x l := by
      refine (sum_swap nq nq (fun j => T j c) (fun j l => Q l j) x).trans (sum_congr rfl fun l _ => ?_)
      exact congrArg (· * x l) (sum_congr rfl fun j _ => mul_comm _ _)
    have sw2 : ∑ j ∈ range nq, T j c * ∑ d ∈ range m, bl d j * z d =
        ∑ d ∈ range m, (∑ l ∈ range nq, bl d l * T l c) * z d := by
      refine (sum_swap nq m (fun j => T j c) (fun j d => bl d j) z).trans (sum_congr rfl fun d _ => ?_)
      exact congrArg (· * z d) (sum_congr rfl fun l _ => mul_comm _ _)
    have e1 : ∑ j ∈ range nq, T j c * (∑ l ∈ range nq, Q l j * x l + ∑ d ∈ range m, bl d j * z d - b j) =
        ∑ l ∈ range nq, (∑ j ∈ range nq, Q l j * T j c) * x l + ∑ d ∈ range m, (∑ l ∈ range nq, bl d l * T l c) * z d -
          ∑ j ∈ range nq, T j c * b j := by
      rw [← sw, ← sw2, ← sum_add_distrib, ← sum_sub_distrib]
      exact sum_congr rfl fun j _ => by ring
    have t1 : |∑ j ∈ range nq, T j c * (∑ l ∈ range nq, Q l j * x l + ∑ d ∈ range m, bl d j * z d - b j)| ≤
        ((1 + g) * ρ + g * a + τ) * P := by
      refine (dot_le' hr).trans ?_
      rw [mul_assoc]
      refine mul_le_mul_of_nonneg_left ?_ (by positivity)
      have := h.T_cols c hc
      rw [hP, mul_comm C]
      exact mul_le_mul_of_nonneg_left (by linarith) W0
    have t2 : |∑ j ∈ range nq, (T j c - Tt j c) * b j| ≤ τ * (nq * ((1 + g) * ((a + ρ) * W))) := by
      refine (dot_le fun j _ => h.T_near j c).trans (mul_le_mul_of_nonneg_left ?_ τ0)
      calc norm1 nq b ≤ ∑ _j ∈ range nq, (1 + g) * ((a + ρ) * W) := sum_le_sum fun j hj => hb j (mem_range.1 hj)
        _ = _ := by rw [sum_const, card_range, nsmul_eq_mul]
    have e2 : ∑ j ∈ range nq, (T j c - Tt j c) * b j = ∑ j ∈ range nq, T j c * b j - ∑ j ∈ range nq, Tt j c * b j := by
      rw [← sum_sub_distrib]; exact sum_congr rfl fun c _ => by ring
    have t3 : |∑ l ∈ range nq, (∑ j ∈ range nq, Q l j * T j c - tr l c) * x l| ≤ ρ * P := by
      refine (dot_le (A := ρ * C) fun l hl => ?_).trans ?_
      · refine (h.T_res l c hl hc).trans (mul_le_mul_of_nonneg_left ?_ ρ0)
        have := h.T_cols c hc
        linarith
      · rw [mul_assoc, ← hX, hP]
        exact mul_le_mul_of_nonneg_left (mul_le_mul_of_nonneg_left (by linarith) (by linarith)) ρ0
    have e3 : ∑ l ∈ range nq, (∑ j ∈ range nq, Q l j * T j c - tr l c) * x l =
        ∑ l ∈ range nq, (∑ j ∈ range nq, Q l j * T j c) * x l - ∑ l ∈ range nq, tr l c * x l := by
      rw [← sum_sub_distrib]; exact sum_congr rfl fun c _ => by ring
    have t4 : |∑ d ∈ range m, S d c * z d - w c| ≤ ρS * P :=
      (hz c hc).trans (mul_le_mul_of_nonneg_left (by linarith) hρS)
    have t5 : |∑ d ∈ range m, (S d c - (br d c - ∑ l ∈ range nq, bl d l * T l c)) * z d| ≤ a * (g * P) := by
      refine (dot_le fun d hd => h.S_err d c hd hc).trans ?_
      rw [← hC, ← hZ]
      calc g * (a * C) * Z = a * (g * (C * Z)) := by ring
        _ ≤ _ := mul_le_mul_of_nonneg_left (mul_le_mul_of_nonneg_left CZP g0) a0
    have e5 : ∑ d ∈ range m, (S d c - (br d c - ∑ l ∈ range nq, bl d l * T l c)) * z d =
        ∑ d ∈ range m, S d c * z d - ∑ d ∈ range m, br d c * z d +
          ∑ d ∈ range m, (∑ l ∈ range nq, bl d l * T l c) * z d := by
      rw [← sum_sub_distrib, ← sum_add_distrib]; exact sum_congr rfl fun c _ => by ring
    have t6 : |∑ d ∈ range m, S d c * z d| ≤ (1 + g) * (a * P) := by
      refine (dot_le fun d hd => h.S_le d c hd hc).trans ?_
      rw [← hC, ← hZ]
      calc (1 + g) * (a * C) * Z = (1 + g) * (a * (C * Z)) := by ring
        _ ≤ _ := mul_le_mul_of_nonneg_left (mul_le_mul_of_nonneg_left CZP a0) (by linarith)
    have t7 : |w c| ≤ (1 + g) * (a * P) + ρS * P := by
      have := abs_sub_abs_le_abs_sub (w c) (∑ d ∈ range m, S d c * z d)
      rw [abs_sub_comm] at this
      linarith
    have t8 : ∑ l ∈ range nq, |Tt l c| * |b l| ≤ B * ((1 + g) * ((a + ρ) * W)) := by
      calc ∑ l ∈ range nq, |Tt l c| * |b l| = ∑ l ∈ range nq, |b l| * |Tt l c| := sum_congr rfl fun l _ => mul_comm _ _
        _ ≤ (1 + g) * ((a + ρ) * W) * norm1 nq (fun l => Tt l c) := dotAbs_le (x := fun l => Tt l c) hb
        _ ≤ (1 + g) * ((a + ρ) * W) * B := mul_le_mul_of_nonneg_left (h.cols c hc) (by positivity)
        _ = _ := mul_comm _ _
    have t9 : |w c - (b2 c - ∑ l ∈ range nq, Tt l c * b l)| ≤
        g * ((1 + g) * (a * P) + ρS * P + B * ((1 + g) * ((a + ρ) * W))) :=
      (hw c hc).trans (mul_le_mul_of_nonneg_left (by linarith) g0)
    -- the bounds in terms of `P`
    have t8' : g * (B * ((1 + g) * ((a + ρ) * W))) ≤ g * ((1 + g) * ((a + ρ) * P)) := by
      refine mul_le_mul_of_nonneg_left ?_ g0
      calc B * ((1 + g) * ((a + ρ) * W)) = (1 + g) * ((a + ρ) * (B * W)) := by ring
        _ ≤ _ := mul_le_mul_of_nonneg_left (mul_le_mul_of_nonneg_left (by linarith) (by positivity)) (by linarith)
    have t2' : τ * (nq * ((1 + g) * ((a + ρ) * W))) ≤ (1 + g) * (a * nq * τ * P) + (1 + g) * (ρ * P) := by
      have p1 : a * nq * τ * W ≤ a * nq * τ * P := mul_le_mul_of_nonneg_left WP (by positivity)
      have p2 : ρ * (nq * τ * W) ≤ ρ * P := mul_le_mul_of_nonneg_left (by linarith) ρ0
      have p3 : (0 : Rat) ≤ 1 + g := by linarith
      have := mul_le_mul_of_nonneg_left p1 p3
      have := mul_le_mul_of_nonneg_left p2 p3
      linarith
    rw [e1] at t1
    rw [e2] at t2
    rw [e3] at t3
    rw [e5] at t5
    rw [abs_le] at t1 t2 t3 t4 t5 t9 ⊢
    constructor <;> linarith

end BlockData

end DDC
