import Verif.Props.C41f

/-!
# Periodic cubic splines at displaced points
-/

namespace DDC.CubicShift

open Spec Props

set_option linter.unusedSectionVars false

variable {K : Type} [Field K] [LinearOrder K] [IsStrictOrderedRing K] [FloorRing K]

/-! ## Cyclic sums -/

section cyclic

variable {n : Nat}

theorem periodic_int {F : Int → K} (hF : ∀ z, F (z + n) = F z) (z k : Int) : F (z + k * n) = F z := by
  induction k using Int.induction_on with
  | zero => simp
  | succ k ih => rw [← ih, ← hF (z + k * n)]; congr 1; ring
  | pred k ih => rw [← ih, ← hF (z + (-(k : Int) - 1) * n)]; congr 1; ring

theorem sum_shift_one {F : Int → K} (hF : ∀ z, F (z + n) = F z) :
    ∑ i ∈ Finset.range n, F ((i : Int) + 1) = ∑ i ∈ Finset.range n, F i := by
  have h1 := Finset.sum_range_succ (fun i : Nat => F i) n
  have h2 := Finset.sum_range_succ' (fun i : Nat => F i) n
  have h3 := hF 0
  rw [zero_add] at h3
  simp only [Nat.cast_add, Nat.cast_one, Nat.cast_zero] at h2
  rw [h1, h3] at h2
  exact (add_right_cancel h2).symm

theorem sum_shift {F : Int → K} (hF : ∀ z, F (z + n) = F z) (q : Int) :
    ∑ i ∈ Finset.range n, F ((i : Int) + q) = ∑ i ∈ Finset.range n, F i := by
  induction q using Int.induction_on with
  | zero => simp
  | succ k ih =>
    rw [← ih, ← sum_shift_one (F := fun z => F (z + k)) (fun z => by rw [← hF (z + k)]; congr 1; ring)]
    refine Finset.sum_congr rfl fun i _ => ?_
    congr 1; ring
  | pred k ih =>
    rw [← ih, ← sum_shift_one (F := fun z => F (z + (-(k : Int) - 1))) (fun z => by rw [← hF (z + (-(k : Int) - 1))]; congr 1; ring)]
    refine Finset.sum_congr rfl fun i _ => ?_
    congr 1; ring

end cyclic

/-! ## The weights -/

/-- The weights of the four B-splines of a cell at the fraction `β` of it. -/
def w (β : K) : Nat → K
  | 0 => (1 - β) ^ 3 / 6
  | 1 => (3 * β ^ 3 - 6 * β ^ 2 + 4) / 6
  | 2 => (-3 * β ^ 3 + 3 * β ^ 2 + 3 * β + 1) / 6
  | _ => β ^ 3 / 6

theorem cardinal_zero (x : K) : cardinal 0 x = max 0 (min x (2 - x)) := rfl

theorem cardinal_once (x : K) : cardinal 1 x = (x * cardinal 0 x + (3 - x) * cardinal 0 (x - 1)) / 2 := by
  have : cardinal 1 x = (x * cardinal 0 x + (((0 : Nat) : K) + 3 - x) * cardinal 0 (x - 1)) / (((0 : Nat) : K) + 2) := rfl
  rw [this, Nat.cast_zero, zero_add, zero_add]

theorem cardinal_twice (x : K) : cardinal 2 x = (x * cardinal 1 x + (4 - x) * cardinal 1 (x - 1)) / 3 := by
  have : cardinal 2 x = (x * cardinal 1 x + (((1 : Nat) : K) + 3 - x) * cardinal 1 (x - 1)) / (((1 : Nat) : K) + 2) := rfl
  rw [this, Nat.cast_one, show (1 : K) + 3 = 4 by norm_num, show (1 : K) + 2 = 3 by norm_num]

theorem cardinal_two {β : K} (h0 : 0 ≤ β) (h1 : β ≤ 1) (k : Nat) (hk : k < 4) : cardinal 2 (β + 3 - k) = w β k := by
  have e0 : cardinal 0 β = β := by rw [cardinal_zero, min_eq_left (by linarith), max_eq_right h0]
  have e1 : cardinal 0 (β + 1) = 1 - β := by
    rw [cardinal_zero, min_eq_right (by linarith), max_eq_right (by linarith)]; ring
  have e2 : cardinal 0 (β + 2) = 0 := by
    rw [cardinal_zero, min_eq_right (by linarith), max_eq_left (by linarith)]
  have e3 : cardinal 0 (β + 3) = 0 := by
    rw [cardinal_zero, min_eq_right (by linarith), max_eq_left (by linarith)]
  have e4 : cardinal 0 (β - 1) = 0 := by
    rw [cardinal_zero, min_eq_left (by linarith), max_eq_left (by linarith)]
  have e5 : cardinal 0 (β - 2) = 0 := by
    rw [cardinal_zero, min_eq_left (by linarith), max_eq_left (by linarith)]
  have s1 : β + 3 - 1 = β + 2 := by ring
  have s2 : β + 2 - 1 = β + 1 := by ring
  have s3 : β + 1 - 1 = β := by ring
  have s4 : β - 1 - 1 = β - 2 := by ring
  rcases k with _ | _ | _ | _ | k
  · rw [Nat.cast_zero, sub_zero]
    simp only [cardinal_once, cardinal_twice, s1, s2, e1, e2, e3, w]
    ring
  · rw [show β + 3 - ((0 + 1 : Nat) : K) = β + 2 by push_cast; ring]
    simp only [cardinal_once, cardinal_twice, s2, s3, e0, e1, e2, w]
    ring
  · rw [show β + 3 - ((0 + 1 + 1 : Nat) : K) = β + 1 by push_cast; ring]
    simp only [cardinal_once, cardinal_twice, s3, e0, e1, e4, w]
    ring
  · rw [show β + 3 - ((0 + 1 + 1 + 1 : Nat) : K) = β by push_cast; ring]
    simp only [cardinal_once, cardinal_twice, s4, e0, e4, e5, w]
    ring
  · omega

/-- The value of a cubic spline in cell `m`. -/
theorem value_cell {a b : K} (hab : a < b) {n : Nat} (hn : 0 < n) (c : Nat → K) {m : Nat} (hm : m < n) {β : K} (h0 : 0 ≤ β) (h1 : β ≤ 1) :
    splineValue (uniformKnot a b n 3) 3 n c (a + (m + β) * ((b - a) / n)) =
      w β 0 * c m + w β 1 * c (m + 1) + w β 2 * c (m + 2) + w β 3 * c (m + 3) := by
  have hterm : ∀ J, bspline (uniformKnot a b n 3) (uniformKnot a b n 3 (3 + n)) 3 J (a + (m + β) * ((b - a) / n)) =
      cardinal 2 (m + β + 3 - J) := fun J => by
    have := bspline_at (p := 3) (by norm_num) hab hn (uniformKnot a b n 3 (3 + n)) (m + β) J
    simpa using this
  rw [splineValue]
  simp only [hterm]
  rw [← Finset.sum_subset (s₁ := Finset.Ico m (m + 4)) (by
    intro J hJ
    rw [Finset.mem_Ico] at hJ
    rw [Finset.mem_range]; omega) (by
    intro J _ hJ
    rw [Finset.mem_Ico, not_and_or, not_le, not_lt] at hJ
    rcases hJ with hJ | hJ
    · rw [cardinal_big 2 (by
        have : (J : K) + 1 ≤ m := by exact_mod_cast hJ
        push_cast; linarith), mul_zero]
    · rw [cardinal_neg 2 (by
        have : (m : K) + 4 ≤ J := by exact_mod_cast hJ
        linarith), mul_zero])]
  rw [Finset.sum_Ico_eq_sum_range, Nat.add_sub_cancel_left]
  simp only [Finset.sum_range_succ, Finset.sum_range_zero, zero_add]
  have hc : ∀ k, k < 4 → cardinal 2 ((m : K) + β + 3 - ((m + k : Nat) : K)) = w β k := by
    intro k hk
    rw [← cardinal_two h0 h1 k hk]
    congr 1
    push_cast; ring
  rw [hc 0 (by omega), hc 1 (by omega), hc 2 (by omega), hc 3 (by omega)]
  simp only [Nat.add_zero]
  ring

/-! ## Periodic coefficients -/

/-- The coefficients over all integers. -/
def ext (n : Nat) (c : Nat → K) (z : Int) : K := c (z % n).toNat

theorem ext_periodic (n : Nat) (c : Nat → K) (z : Int) : ext n c (z + n) = ext n c z := by
  rw [ext, ext, Int.add_emod_right]

theorem ext_nat {n : Nat} (hn : 3 < n) {c : Nat → K} (hc : ∀ i, i < 3 → c (n + i) = c i) {J : Nat} (hJ : J < n + 3) :
    ext n c J = c J := by
  rw [ext]
  rcases Nat.lt_or_ge J n with h | h
  · rw [show ((J : Int) % n).toNat = J by
      rw [Int.emod_eq_of_lt (by omega) (by omega)]; omega]
  · obtain ⟨i, rfl⟩ : ∃ i, J = n + i := ⟨J - n, by omega⟩
    rw [hc i (by omega)]
    congr 1
    push_cast
    rw [Int.add_emod_left, Int.emod_eq_of_lt (by omega) (by omega)]
    omega

/-- The spline at the fraction `β` of cell `z`. -/
def val (n : Nat) (c : Nat → K) (β : K) (z : Int) : K :=
  w β 0 * ext n c z + w β 1 * ext n c (z + 1) + w β 2 * ext n c (z + 2) + w β 3 * ext n c (z + 3)

theorem val_periodic (n : Nat) (c : Nat → K) (β : K) (z : Int) : val n c β (z + n) = val n c β z := by
  simp only [val, add_right_comm z (n : Int), ext_periodic]

theorem value_eq {a b : K} (hab : a < b) {n : Nat} (hn : 3 < n) {c : Nat → K} (hc : ∀ i, i < 3 → c (n + i) = c i) {m : Nat} (hm : m < n)
    {β : K} (h0 : 0 ≤ β) (h1 : β ≤ 1) :
    splineValue (uniformKnot a b n 3) 3 n c (a + (m + β) * ((b - a) / n)) = val n c β m := by
  rw [value_cell hab (by omega) c hm h0 h1, val, ext_nat hn hc (by omega)]
  have e : ∀ k : Nat, k < 4 → ext n c ((m : Int) + (k : Nat)) = c (m + k) := by
    intro k hk
    have := ext_nat hn hc (J := m + k) (by omega)
    push_cast at this
    exact this
  have e1 := e 1 (by omega)
  have e2 := e 2 (by omega)
  have e3 := e 3 (by omega)
  push_cast at e1 e2 e3
  rw [e1, e2, e3]

/-- A displaced point is at the fraction `β` of a cell, whose number does not depend on the point but for its own. -/
theorem locate {a b : K} (hab : a < b) {n : Nat} (hn : 0 < n) (δ : K) : ∃ (q : Int) (β : K), 0 ≤ β ∧ β < 1 ∧
    δ = -((q : K) + β) * ((b - a) / n) ∧ ∀ i : Nat, ∃ (m : Nat) (k : Int), m < n ∧ (i : Int) + q = m + k * n ∧
      a + i * ((b - a) / n) - δ = a + (m + β) * ((b - a) / n) + k * (b - a) ∧
      a ≤ a + (m + β) * ((b - a) / n) ∧ a + (m + β) * ((b - a) / n) ≤ b := by
  have hn' : (0 : K) < n := by exact_mod_cast hn
  have h0 : 0 < (b - a) / (n : K) := div_pos (sub_pos.2 hab) hn'
  have hnh : (n : K) * ((b - a) / n) = b - a := mul_div_cancel₀ _ hn'.ne'
  obtain ⟨h, hh⟩ : ∃ h, h = (b - a) / (n : K) := ⟨_, rfl⟩
  rw [← hh] at h0 hnh
  rw [← hh]
  have hδ : δ = -(((⌊-(δ / h)⌋ : Int) : K) + Int.fract (-(δ / h))) * h := by
    rw [Int.floor_add_fract, neg_neg, div_mul_cancel₀ _ h0.ne']
  refine ⟨⌊-(δ / h)⌋, Int.fract (-(δ / h)), Int.fract_nonneg _, Int.fract_lt_one _, hδ, ?_⟩
  obtain ⟨q, hq⟩ : ∃ q : Int, q = ⌊-(δ / h)⌋ := ⟨_, rfl⟩
  obtain ⟨β, hβ⟩ : ∃ β : K, β = Int.fract (-(δ / h)) := ⟨_, rfl⟩
  have hβ0 : 0 ≤ β := by rw [hβ]; exact Int.fract_nonneg _
  have hβ1 : β < 1 := by rw [hβ]; exact Int.fract_lt_one _
  rw [← hq, ← hβ] at hδ ⊢
  clear hq hβ
  intro i
  have hpos : (0 : Int) < n := by exact_mod_cast hn
  have m0 := Int.emod_nonneg ((i : Int) + q) hpos.ne'
  have m1 := Int.emod_lt_of_pos ((i : Int) + q) hpos
  obtain ⟨m, hm⟩ := Int.eq_ofNat_of_zero_le m0
  have hz : (i : Int) + q = m + ((i : Int) + q) / n * n := by
    rw [← hm]; exact (Int.emod_add_ediv_mul _ _).symm
  have hz' : (i : K) + q = m + ((((i : Int) + q) / n : Int) : K) * n := by exact_mod_cast hz
  have hmn : m < n := by omega
  have hm1 : (m : K) + 1 ≤ n := by exact_mod_cast hmn
  refine ⟨m, ((i : Int) + q) / n, hmn, hz, ?_, ?_, ?_⟩
  · rw [hδ, ← hnh]
    linear_combination h * hz'
  · have : 0 ≤ ((m : K) + β) * h := mul_nonneg (by positivity) h0.le
    linarith
  · have : ((m : K) + β) * h ≤ n * h := mul_le_mul_of_nonneg_right (by linarith) h0.le
    linarith

/-! ## Conservation, energy -/

section laws

variable (n : Nat) (c : Nat → K)

theorem sum_val (β : K) (q : Int) : ∑ i ∈ Finset.range n, val n c β ((i : Int) + q) = ∑ i ∈ Finset.range n, ext n c i := by
  rw [sum_shift (fun z => val_periodic n c β z) q]
  simp only [val, Finset.sum_add_distrib, ← Finset.mul_sum]
  rw [sum_shift (fun z => ext_periodic n c z) 1, sum_shift (fun z => ext_periodic n c z) 2, sum_shift (fun z => ext_periodic n c z) 3,
    ← add_mul, ← add_mul, ← add_mul]
  simp only [w]
  rw [show (1 - β) ^ 3 / 6 + (3 * β ^ 3 - 6 * β ^ 2 + 4) / 6 + (-3 * β ^ 3 + 3 * β ^ 2 + 3 * β + 1) / 6 + β ^ 3 / 6 = 1 by ring, one_mul]

theorem sum_products (f : Int → Int) (k : Int) (hf : ∀ z, f z = z + k) (l : Int) :
    ∑ i ∈ Finset.range n, ext n c (f ((i : Int) + l)) * ext n c ((i : Int) + l) =
      ∑ i ∈ Finset.range n, ext n c ((i : Int) + k) * ext n c i := by
  have := sum_shift (F := fun z => ext n c (z + k) * ext n c z) (n := n) (fun z => by
    rw [add_right_comm, ext_periodic, ext_periodic]) l
  rw [← this]
  refine Finset.sum_congr rfl fun i _ => ?_
  rw [hf]

/-- The squares at the points exceed those at the displaced points by squares of differences of the coefficients. -/
theorem sum_squares (β : K) (q : Int) :
    ∑ i ∈ Finset.range n, val n c 0 i ^ 2 = ∑ i ∈ Finset.range n, val n c β ((i : Int) + q) ^ 2 +
      β ^ 2 * (1 - β) ^ 2 / 12 * ∑ i ∈ Finset.range n, (ext n c i - 2 * ext n c ((i : Int) + 1) + ext n c ((i : Int) + 2)) ^ 2 +
      β ^ 3 * (1 - β) ^ 3 / 36 * ∑ i ∈ Finset.range n,
        (ext n c i - 3 * ext n c ((i : Int) + 1) + 3 * ext n c ((i : Int) + 2) - ext n c ((i : Int) + 3)) ^ 2 := by
  rw [sum_shift (F := fun z => val n c β z ^ 2) (fun z => by rw [val_periodic]) q]
  obtain ⟨C, hC⟩ : ∃ C : Int → K, C = ext n c := ⟨_, rfl⟩
  have hper : ∀ z, C (z + n) = C z := by rw [hC]; exact ext_periodic n c
  -- all the products by the distance of their factors
  have hs : ∀ k l : Int, ∑ i ∈ Finset.range n, C ((i : Int) + l + k) * C ((i : Int) + l) =
      ∑ i ∈ Finset.range n, C ((i : Int) + k) * C i := by
    intro k l
    exact sum_shift (F := fun z => C (z + k) * C z) (fun z => by rw [add_right_comm, hper, hper]) l
  have h11 := hs 0 1
  have h22 := hs 0 2
  have h33 := hs 0 3
  have h12 := hs 1 1
  have h23 := hs 1 2
  have h13 := hs 2 1
  simp only [add_zero, add_assoc] at h11 h22 h33 h12 h23 h13
  norm_num at h12 h23 h13
  obtain ⟨r0, e0⟩ : ∃ r, r = ∑ i ∈ Finset.range n, C i * C i := ⟨_, rfl⟩
  obtain ⟨r1, e1⟩ : ∃ r, r = ∑ i ∈ Finset.range n, C ((i : Int) + 1) * C i := ⟨_, rfl⟩
  obtain ⟨r2, e2⟩ : ∃ r, r = ∑ i ∈ Finset.range n, C ((i : Int) + 2) * C i := ⟨_, rfl⟩
  obtain ⟨r3, e3⟩ : ∃ r, r = ∑ i ∈ Finset.range n, C ((i : Int) + 3) * C i := ⟨_, rfl⟩
  have hquad : ∀ x0 x1 x2 x3 : K, ∑ i ∈ Finset.range n,
      (x0 * C i + x1 * C ((i : Int) + 1) + x2 * C ((i : Int) + 2) + x3 * C ((i : Int) + 3)) ^ 2 =
      (x0 ^ 2 + x1 ^ 2 + x2 ^ 2 + x3 ^ 2) * r0 + 2 * (x0 * x1 + x1 * x2 + x2 * x3) * r1 + 2 * (x0 * x2 + x1 * x3) * r2 +
        2 * (x0 * x3) * r3 := by
    intro x0 x1 x2 x3
    have : ∀ i : Nat, (x0 * C i + x1 * C ((i : Int) + 1) + x2 * C ((i : Int) + 2) + x3 * C ((i : Int) + 3)) ^ 2 =
        x0 ^ 2 * (C i * C i) + x1 ^ 2 * (C ((i : Int) + 1) * C ((i : Int) + 1)) + x2 ^ 2 * (C ((i : Int) + 2) * C ((i : Int) + 2)) +
        x3 ^ 2 * (C ((i : Int) + 3) * C ((i : Int) + 3)) + 2 * (x0 * x1) * (C ((i : Int) + 1) * C i) +
        2 * (x1 * x2) * (C ((i : Int) + 2) * C ((i : Int) + 1)) + 2 * (x2 * x3) * (C ((i : Int) + 3) * C ((i : Int) + 2)) +
        2 * (x0 * x2) * (C ((i : Int) + 2) * C i) + 2 * (x1 * x3) * (C ((i : Int) + 3) * C ((i : Int) + 1)) +
        2 * (x0 * x3) * (C ((i : Int) + 3) * C i) := fun i => by ring
    simp only [this, Finset.sum_add_distrib, ← Finset.mul_sum, h11, h22, h33, h12, h23, h13, ← e0, ← e1, ← e2, ← e3]
    ring
  have q1 := hquad (w 0 0) (w 0 1) (w 0 2) (w 0 3)
  have q2 := hquad (w β 0) (w β 1) (w β 2) (w β 3)
  have q3 := hquad 1 (-2) 1 0
  have q4 := hquad 1 (-3) 3 (-1)
  simp only [val, ← hC]
  rw [q1, q2, show ∑ i ∈ Finset.range n, (C i - 2 * C ((i : Int) + 1) + C ((i : Int) + 2)) ^ 2 = _ from
      (Finset.sum_congr rfl fun i _ => by ring).trans q3,
    show ∑ i ∈ Finset.range n, (C i - 3 * C ((i : Int) + 1) + 3 * C ((i : Int) + 2) - C ((i : Int) + 3)) ^ 2 = _ from
      (Finset.sum_congr rfl fun i _ => by ring).trans q4]
  simp only [w]
  ring

/-- The coefficients are at most three times the values at the points. -/
theorem ext_le {n : Nat} {c : Nat → K} {V : K} (hn : 0 < n) (hV : ∀ i : Nat, i < n → |val n c 0 i| ≤ V) (z : Int) :
    |ext n c z| ≤ 3 * V := by
  have hpos : (0 : Int) < n := by exact_mod_cast hn
  obtain ⟨M, hM, hmax⟩ := Finset.exists_max_image (Finset.range n) (fun J : Nat => |ext n c J|) ⟨0, Finset.mem_range.2 hn⟩
  have hred : ∀ z : Int, ∃ m : Nat, m < n ∧ ext n c z = ext n c m ∧ val n c 0 z = val n c 0 m := by
    intro z
    have m0 := Int.emod_nonneg z hpos.ne'
    have m1 := Int.emod_lt_of_pos z hpos
    obtain ⟨m, hm⟩ := Int.eq_ofNat_of_zero_le m0
    have hz : z = m + z / n * n := by rw [← hm]; exact (Int.emod_add_ediv_mul _ _).symm
    refine ⟨m, by omega, ?_, ?_⟩
    · conv_lhs => rw [hz]
      exact periodic_int (fun z => ext_periodic n c z) _ _
    · conv_lhs => rw [hz]
      exact periodic_int (fun z => val_periodic n c 0 z) _ _
  have hall : ∀ z, |ext n c z| ≤ |ext n c M| := by
    intro z
    obtain ⟨m, h1, h2, -⟩ := hred z
    rw [h2]
    exact hmax m (Finset.mem_range.2 h1)
  have hVall : ∀ z, |val n c 0 z| ≤ V := by
    intro z
    obtain ⟨m, h1, -, h3⟩ := hred z
    rw [h3]
    exact hV m h1
  have h1 := hVall ((M : Int) - 1)
  have h2 := hall ((M : Int) - 1)
  have h3 := hall ((M : Int) + 1)
  rw [val, show (M : Int) - 1 + 1 = M by ring, show (M : Int) - 1 + 2 = M + 1 by ring] at h1
  simp only [w] at h1
  refine (hall z).trans ?_
  have h4 : 4 * ext n c M = 6 * ((1 - 0) ^ 3 / 6 * ext n c (↑M - 1) + (3 * 0 ^ 3 - 6 * 0 ^ 2 + 4) / 6 * ext n c ↑M +
    (-3 * 0 ^ 3 + 3 * 0 ^ 2 + 3 * 0 + 1) / 6 * ext n c (↑M + 1) + 0 ^ 3 / 6 * ext n c (↑M - 1 + 3)) -
      ext n c (↑M - 1) - ext n c (↑M + 1) := by ring
  have h5 : 4 * |ext n c M| ≤ 6 * V + |ext n c M| + |ext n c M| := by
    rw [show 4 * |ext n c M| = |4 * ext n c M| by rw [abs_mul, abs_of_pos (by norm_num : (0 : K) < 4)], h4]
    refine (abs_sub _ _).trans (add_le_add ((abs_sub _ _).trans (add_le_add ?_ h2)) h3)
    rw [abs_mul, abs_of_pos (by norm_num : (0 : K) < 6)]
    exact mul_le_mul_of_nonneg_left h1 (by norm_num)
  linarith

end laws

end DDC.CubicShift
