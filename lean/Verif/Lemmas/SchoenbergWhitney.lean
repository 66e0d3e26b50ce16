import Verif.Lemmas.BSpline
import Verif.Lemmas.ZeroCount
import Mathlib.Algebra.Polynomial.Roots
import Mathlib.Order.Interval.Set.Infinite

/-!
# The Schoenberg–Whitney theorem

A spline of degree `p` that satisfies as many homogeneous conditions as it has coefficients, the `k`-th of them
inside the support of the `k`-th B-spline, is zero.
-/

namespace DDC.Zeros

open Set Polynomial Filter Topology

/-! ## Piecewise polynomial functions -/

/-- The interval of `x`, for the knots `t u, …, t v`. -/
noncomputable def cellOf (t : Nat → ℝ) (v : Nat) (x : ℝ) : Nat :=
  letI := Classical.decPred fun c : Nat => t c ≤ x
  Nat.findGreatest (fun c => t c ≤ x) (v - 1)

variable {t : Nat → ℝ} {u v : Nat}

theorem cellOf_lt (huv : u < v) (x : ℝ) : cellOf t v x < v := by
  have := @Nat.findGreatest_le (fun c => t c ≤ x) (Classical.decPred _) (v - 1)
  unfold cellOf
  omega

theorem cellOf_mono {x y : ℝ} (hxy : x ≤ y) : cellOf t v x ≤ cellOf t v y := by
  unfold cellOf
  have h0 := @Nat.findGreatest_le (fun c => t c ≤ x) (Classical.decPred _) (v - 1)
  rcases Nat.eq_zero_or_pos (@Nat.findGreatest (fun c => t c ≤ x) (Classical.decPred _) (v - 1)) with e | e
  · rw [e]
    exact Nat.zero_le _
  · have h1 := @Nat.findGreatest_of_ne_zero _ (fun c => t c ≤ x) (Classical.decPred _) (v - 1) rfl e.ne'
    exact @Nat.le_findGreatest _ (fun c => t c ≤ y) (Classical.decPred _) _ h0 (h1.trans hxy)

/-- On `[t c, t (c + 1))`. -/
theorem cellOf_eq (ht : Monotone t) {c : Nat} (hc : c < v) {x : ℝ} (h1 : t c ≤ x) (h2 : x < t (c + 1)) :
    cellOf t v x = c := by
  unfold cellOf
  refine (@Nat.findGreatest_eq_iff c (v - 1) (fun c => t c ≤ x) (Classical.decPred _)).2 ⟨by omega, fun _ => h1, fun k hk _ => ?_⟩
  exact not_le.2 (h2.trans_le (ht hk))

theorem cellOf_last {x : ℝ} (huv : u < v) (h : t (v - 1) ≤ x) : cellOf t v x = v - 1 := by
  unfold cellOf
  exact (@Nat.findGreatest_eq_iff (v - 1) (v - 1) (fun c => t c ≤ x) (Classical.decPred _)).2 ⟨le_rfl, fun _ => h, fun k hk hk' => by omega⟩

/-- There is an interval for every point. -/
theorem exists_cell {x : ℝ} : ∀ {v : Nat}, u < v → t u ≤ x → x < t v → ∃ c, u ≤ c ∧ c < v ∧ t c ≤ x ∧ x < t (c + 1) := by
  intro v huv h1
  induction v, huv using Nat.le_induction with
  | base => exact fun h2 => ⟨u, le_rfl, by omega, h1, h2⟩
  | succ v hv ih =>
    intro h2
    by_cases h : x < t v
    · obtain ⟨c, c1, c2, c3⟩ := ih h
      exact ⟨c, c1, by omega, c3⟩
    · have : u < v + 1 := by omega
      exact ⟨v, by omega, by omega, not_lt.1 h, h2⟩

/-- The function with the polynomial pieces `P c`, and its derivatives. -/
noncomputable def pw (t : Nat → ℝ) (v : Nat) (P : Nat → ℝ[X]) (k : Nat) (x : ℝ) : ℝ :=
  (derivative^[k] (P (cellOf t v x))).eval x

variable {P : Nat → ℝ[X]}

theorem pw_eq (ht : Monotone t) {c : Nat} (hc : c < v) {x : ℝ} (h1 : t c ≤ x) (h2 : x < t (c + 1)) (k : Nat) :
    pw t v P k x = (derivative^[k] (P c)).eval x := by
  rw [pw, cellOf_eq ht hc h1 h2]

/-- The pieces fit together: the derivatives of order less than `p` agree at the inner knots. -/
def Smooth (t : Nat → ℝ) (u v p : Nat) (P : Nat → ℝ[X]) : Prop :=
  ∀ c, u ≤ c → c + 1 < v → ∀ k, k < p →
    (derivative^[k] (P c)).eval (t (c + 1)) = (derivative^[k] (P (c + 1))).eval (t (c + 1))

/-- The right end of an interval. -/
theorem pw_right (ht : Monotone t) {c p : Nat} (hs : Smooth t u v p P) (hst : ∀ c, u ≤ c → c < v → t c < t (c + 1))
    (hu : u ≤ c) (hc : c < v) {k : Nat} (hk : k < p) : pw t v P k (t (c + 1)) = (derivative^[k] (P c)).eval (t (c + 1)) := by
  by_cases h : c + 1 < v
  · rw [pw_eq ht h le_rfl (hst _ (by omega) h), hs c hu h k hk]
  · obtain rfl : v = c + 1 := by omega
    rw [pw, cellOf_last (u := u) (by omega) (ht (by omega)), Nat.add_sub_cancel]

theorem pw_hasDeriv (ht : Monotone t) (huv : u < v) {x : ℝ} (hx : x ∈ Ico (t u) (t v)) (k : Nat) :
    HasDerivWithinAt (pw t v P k) (pw t v P (k + 1) x) (Ici x) x := by
  obtain ⟨c, c1, c2, c3, c4⟩ := exists_cell huv hx.1 hx.2
  have he : pw t v P k =ᶠ[𝓝[≥] x] fun y => (derivative^[k] (P c)).eval y := by
    filter_upwards [Ico_mem_nhdsGE c4] with y hy
    exact pw_eq ht c2 (c3.trans hy.1) hy.2 k
  rw [pw_eq ht c2 c3 c4, Function.iterate_succ_apply']
  exact ((derivative^[k] (P c)).hasDerivWithinAt x (Ici x)).congr_of_eventuallyEq he (pw_eq ht c2 c3 c4 k)

theorem pw_continuousOn (ht : Monotone t) (huv : u < v) {p : Nat} (hs : Smooth t u v p P)
    (hst : ∀ c, u ≤ c → c < v → t c < t (c + 1)) {k : Nat} (hk : k < p) : ContinuousOn (pw t v P k) (Icc (t u) (t v)) := by
  have hL : ∀ x, t u < x → x ≤ t v → ContinuousWithinAt (pw t v P k) (Iic x) x := by
    intro x h1 h2
    obtain ⟨c, c1, c2, c3, c4⟩ : ∃ c, u ≤ c ∧ c < v ∧ t c < x ∧ x ≤ t (c + 1) := by
      have key : ∀ v, u < v → x ≤ t v → ∃ c, u ≤ c ∧ c < v ∧ t c < x ∧ x ≤ t (c + 1) := by
        intro v hv
        induction v, hv using Nat.le_induction with
        | base => exact fun h => ⟨u, le_rfl, by omega, h1, h⟩
        | succ v hv ih =>
          intro h2
          by_cases h : x ≤ t v
          · obtain ⟨c, c1, c2, c3⟩ := ih h
            exact ⟨c, c1, by omega, c3⟩
          · have : u < v + 1 := by omega
            exact ⟨v, by omega, by omega, not_le.1 h, h2⟩
      exact key v huv h2
    have hx : pw t v P k x = (derivative^[k] (P c)).eval x := by
      rcases c4.lt_or_eq with h | h
      · exact pw_eq ht c2 c3.le h k
      · rw [h]
        exact pw_right ht hs hst c1 c2 hk
    have he : pw t v P k =ᶠ[𝓝[≤] x] fun y => (derivative^[k] (P c)).eval y := by
      filter_upwards [Ioc_mem_nhdsLE c3] with y hy
      rcases hy.2.lt_or_eq with h | h
      · exact pw_eq ht c2 hy.1.le (h.trans_le c4) k
      · rw [h, hx]
    exact ((Polynomial.hasDerivAt _ x).continuousAt.continuousWithinAt).congr_of_eventuallyEq he hx
  have hR : ∀ x, t u ≤ x → x < t v → ContinuousWithinAt (pw t v P k) (Ici x) x := fun x h1 h2 =>
    (pw_hasDeriv ht huv ⟨h1, h2⟩ k).continuousWithinAt
  intro x hx
  rcases hx.1.eq_or_lt with e | h1
  · have : x < t v := by
      rw [← e]
      exact lt_of_lt_of_le (hst u le_rfl huv) (ht huv)
    exact (hR x hx.1 this).mono fun y hy => (show x ≤ y from e ▸ hy.1)
  · rcases hx.2.eq_or_lt with e | h2
    · exact (hL x h1 hx.2).mono fun y hy => (show y ≤ x from e ▸ hy.2)
    · exact ((hL x h1 hx.2).union (hR x hx.1 h2)).mono fun y _ => le_total y x

/-- A piecewise polynomial function of degree `p` with its derivatives. -/
theorem pw_tower (ht : Monotone t) (huv : u < v) {p : Nat} (hs : Smooth t u v p P)
    (hst : ∀ c, u ≤ c → c < v → t c < t (c + 1)) (hdeg : ∀ c, (P c).natDegree ≤ p) :
    Tower (pw t v P) p (v - u) (t u) (t v) := by
  refine ⟨fun k hk => ⟨pw_continuousOn ht huv hs hst hk, fun x hx => pw_hasDeriv ht huv hx k⟩,
    fun x => cellOf t v x - u, fun c => (derivative^[p] (P (u + c))).eval 0, ?_, ?_, ?_⟩
  · intro x y _ h _
    exact Nat.sub_le_sub_right (cellOf_mono h) u
  · intro x h1 h2
    obtain ⟨c, c1, c2, c3, c4⟩ := exists_cell huv h1 h2
    dsimp only
    rw [cellOf_eq ht c2 c3 c4]
    omega
  · intro x h1 h2
    obtain ⟨c, c1, c2, c3, c4⟩ := exists_cell huv h1 h2
    dsimp only
    rw [pw_eq ht c2 c3 c4, cellOf_eq ht c2 c3 c4, Nat.add_sub_cancel' c1]
    have : (derivative^[p] (P c)).natDegree = 0 := by
      have := natDegree_iterate_derivative (P c) p
      have := hdeg c
      omega
    rw [eq_C_of_natDegree_eq_zero this]
    simp

theorem pw_ne (ht : Monotone t) (huv : u < v) (hne : ∀ c, u ≤ c → c < v → P c ≠ 0) {x y : ℝ} (h1 : t u ≤ x) (h2 : x < y)
    (h3 : y ≤ t v) : ∃ w, x < w ∧ w < y ∧ pw t v P 0 w ≠ 0 := by
  obtain ⟨c, c1, c2, c3, c4⟩ := exists_cell huv h1 (h2.trans_le h3)
  by_contra hcon
  push Not at hcon
  refine hne c c1 c2 (Polynomial.eq_zero_of_infinite_isRoot _ ((Ioo_infinite (lt_min h2 c4)).mono fun w hw => ?_))
  have := hcon w hw.1 (hw.2.trans_le (min_le_left _ _))
  rw [pw_eq ht c2 (c3.trans hw.1.le) (hw.2.trans_le (min_le_right _ _))] at this
  exact this

/-- A smooth piecewise polynomial function none of whose pieces vanishes. -/
theorem pw_zeros (ht : Monotone t) (huv : u < v) {p : Nat} (hp : 0 < p) (hs : Smooth t u v p P)
    (hst : ∀ c, u ≤ c → c < v → t c < t (c + 1)) (hdeg : ∀ c, (P c).natDegree ≤ p) (hne : ∀ c, u ≤ c → c < v → P c ≠ 0)
    {k0 k1 : Nat} {x : Nat → ℝ}
    (hx : ∀ k, k0 ≤ k → k < k1 → t u < x k ∧ x k < t v ∧ ∀ c, u ≤ c → c < v → t c ≤ x k → x k < t (c + 1) → (P c).eval (x k) = 0)
    (hinc : ∀ i j, k0 ≤ i → i < j → j < k1 → x i < x j) {e0 e1 μ ν : Nat}
    (he0 : e0 = 0 ∨ e0 = 1 ∧ (P u).eval (t u) = 0) (he1 : e1 = 0 ∨ e1 = 1 ∧ (P (v - 1)).eval (t v) = 0)
    (hμ : μ < p) (hν : ν < p)
    (h0 : ∀ k, k < μ → (derivative^[k + 1] (P u)).eval (t u) = 0)
    (h1 : ∀ k, k < ν → (derivative^[k + 1] (P (v - 1))).eval (t v) = 0) (hv : 0 < (k1 - k0) + e0 + e1) :
    (k1 - k0) + (e0 + μ) + (e1 + ν) + 1 ≤ v - u + p := by
  have hl : ∀ k, pw t v P k (t u) = (derivative^[k] (P u)).eval (t u) := fun k =>
    pw_eq ht huv le_rfl (hst u le_rfl huv) k
  have hr : ∀ k, pw t v P k (t v) = (derivative^[k] (P (v - 1))).eval (t v) := fun k => by
    rw [pw, cellOf_last huv (ht (by omega))]
  refine (pw_tower ht huv hs hst hdeg).zeros hp ((hst u le_rfl huv).trans_le (ht huv))
    (fun x y a b c => pw_ne ht huv hne a b c) (x := fun i => x (k0 + i)) (fun i hi => ?_)
    (fun i j hij hj => hinc _ _ (by omega) (by omega) (by omega)) (he0.imp_right fun h => ⟨h.1, (hl 0).trans h.2⟩)
    (he1.imp_right fun h => ⟨h.1, (hr 0).trans h.2⟩) hμ hν (fun k hk => (hl _).trans (h0 k hk))
    (fun k hk => (hr _).trans (h1 k hk)) hv
  obtain ⟨a1, a2, a3⟩ := hx (k0 + i) (by omega) (by omega)
  refine ⟨a1, a2, ?_⟩
  obtain ⟨c, c1, c2, c3, c4⟩ := exists_cell huv a1.le a2
  rw [pw_eq ht c2 c3 c4]
  exact a3 c c1 c2 c3 c4

/-- The Schoenberg–Whitney theorem for piecewise polynomial functions: `e0 + μ` conditions at the lower end (the
value if `e0 = 1`, and the `μ` first derivatives), `e1 + ν` at the upper end, and the conditions `k0 ≤ k < k1` at
points `x k` between the knots `k` and `k + p + 1`. -/
theorem pw_zero (ht : Monotone t) {A B p : Nat} (hp : 0 < p) (hs : Smooth t A B p P)
    (hst : ∀ c, A ≤ c → c < B → t c < t (c + 1)) (hdeg : ∀ c, (P c).natDegree ≤ p) {k0 k1 : Nat} {x : Nat → ℝ}
    (hx : ∀ k, k0 ≤ k → k < k1 → t A < x k ∧ x k < t B ∧ t k < x k ∧ x k < t (k + p + 1) ∧
      ∀ c, A ≤ c → c < B → t c ≤ x k → x k < t (c + 1) → (P c).eval (x k) = 0)
    (hinc : ∀ i j, k0 ≤ i → i < j → j < k1 → x i < x j) {e0 e1 μ ν : Nat}
    (he0 : e0 = 0 ∨ e0 = 1 ∧ (P A).eval (t A) = 0) (he1 : e1 = 0 ∨ e1 = 1 ∧ (P (B - 1)).eval (t B) = 0)
    (hμ : μ < p) (hν : ν < p)
    (h0 : ∀ k, k < μ → (derivative^[k + 1] (P A)).eval (t A) = 0)
    (h1 : ∀ k, k < ν → (derivative^[k + 1] (P (B - 1))).eval (t B) = 0) (hk0 : k0 + p ≤ e0 + μ + A)
    (hk1 : B ≤ k1 + (e1 + ν)) (hv : 0 < (k1 - k0) + e0 + e1) :
    ∀ c, A ≤ c → c < B → P c = 0 := by
  by_contra hcon
  push Not at hcon
  obtain ⟨c, c1, c2, c3⟩ := hcon
  -- a maximal run of non-zero pieces
  obtain ⟨u, u1, u2, u3, u4⟩ : ∃ u, A ≤ u ∧ u ≤ c ∧ (∀ d, u ≤ d → d ≤ c → P d ≠ 0) ∧ (u = A ∨ A < u ∧ P (u - 1) = 0) := by
    have key : ∀ m, m ≤ c - A → (∀ d, c - m ≤ d → d ≤ c → P d ≠ 0) ∨
        ∃ u, A ≤ u ∧ u ≤ c ∧ (∀ d, u ≤ d → d ≤ c → P d ≠ 0) ∧ (u = A ∨ A < u ∧ P (u - 1) = 0) := by
      intro m
      induction m with
      | zero =>
        intro _
        left
        intro d h1 h2
        obtain rfl : d = c := by omega
        exact c3
      | succ m ih =>
        intro hm
        rcases ih (by omega) with h | h
        · by_cases hz : P (c - (m + 1)) = 0
          · right
            exact ⟨c - m, by omega, by omega, h, .inr ⟨by omega, by rwa [show c - m - 1 = c - (m + 1) by omega]⟩⟩
          · left
            intro d h1 h2
            by_cases hd : d = c - (m + 1)
            · rwa [hd]
            · exact h d (by omega) h2
        · exact .inr h
    rcases key (c - A) le_rfl with h | h
    · exact ⟨A, le_rfl, c1, fun d h1 h2 => h d (by omega) h2, .inl rfl⟩
    · exact h
  obtain ⟨v, v1, v2, v3, v4⟩ : ∃ v, c < v ∧ v ≤ B ∧ (∀ d, c ≤ d → d < v → P d ≠ 0) ∧ (v = B ∨ v < B ∧ P v = 0) := by
    have key : ∀ m, m ≤ B - 1 - c → (∀ d, c ≤ d → d ≤ c + m → P d ≠ 0) ∨
        ∃ v, c < v ∧ v ≤ B ∧ (∀ d, c ≤ d → d < v → P d ≠ 0) ∧ (v = B ∨ v < B ∧ P v = 0) := by
      intro m
      induction m with
      | zero =>
        intro _
        left
        intro d h1 h2
        obtain rfl : d = c := by omega
        exact c3
      | succ m ih =>
        intro hm
        rcases ih (by omega) with h | h
        · by_cases hz : P (c + (m + 1)) = 0
          · right
            exact ⟨c + (m + 1), by omega, by omega, fun d h1 h2 => h d h1 (by omega), .inr ⟨by omega, hz⟩⟩
          · left
            intro d h1 h2
            by_cases hd : d = c + (m + 1)
            · rwa [hd]
            · exact h d h1 (by omega)
        · exact .inr h
    rcases key (B - 1 - c) le_rfl with h | h
    · exact ⟨B, c2, le_rfl, fun d h1 h2 => h d h1 (by omega), .inl rfl⟩
    · exact h
  have huv : u < v := by omega
  have hne : ∀ d, u ≤ d → d < v → P d ≠ 0 := fun d h1 h2 => by
    rcases Nat.le_total d c with h | h
    · exact u3 d h1 h
    · exact v3 d h h2
  -- the orders at its ends, and the conditions inside
  have hk0A : k0 ≤ A := by omega
  obtain ⟨e0', μ', a, m0, m1, m2, m3, m4, m5, m6⟩ : ∃ e0' μ' a, (e0' = 0 ∨ e0' = 1 ∧ (P u).eval (t u) = 0) ∧ μ' < p ∧
      (∀ k, k < μ' → (derivative^[k + 1] (P u)).eval (t u) = 0) ∧
      k0 ≤ a ∧ (∀ k, a ≤ k → k < k1 → t u < x k) ∧ a + p ≤ e0' + μ' + u ∧ (e0' = e0 ∧ a = k0 ∨ e0' = 1) := by
    rcases u4 with rfl | ⟨g1, g2⟩
    · exact ⟨e0, μ, k0, he0, hμ, h0, le_rfl, fun k h1 h2 => (hx k h1 h2).1, hk0, .inl ⟨rfl, rfl⟩⟩
    · have hz : ∀ k, k < p → (derivative^[k] (P u)).eval (t u) = 0 := by
        intro k hk
        have := hs (u - 1) (by omega) (by omega) k hk
        rw [Nat.sub_add_cancel (by omega), g2] at this
        rw [← this]
        simp
      refine ⟨1, p - 1, u, .inr ⟨rfl, hz 0 hp⟩, by omega, fun k hk => hz _ (by omega), by omega, fun k h1 h2 => ?_, by omega,
        .inr rfl⟩
      · exact lt_of_le_of_lt (ht h1) (hx k (by omega) h2).2.2.1
  obtain ⟨e1', ν', b, n0, n1, n2, n3, n4, n5, n6⟩ : ∃ e1' ν' b, (e1' = 0 ∨ e1' = 1 ∧ (P (v - 1)).eval (t v) = 0) ∧
      ν' < p ∧ (∀ k, k < ν' → (derivative^[k + 1] (P (v - 1))).eval (t v) = 0) ∧
      b ≤ k1 ∧ (∀ k, k0 ≤ k → k < b → x k < t v) ∧ v ≤ b + (e1' + ν') ∧ (e1' = e1 ∧ b = k1 ∨ e1' = 1) := by
    rcases v4 with rfl | ⟨g1, g2⟩
    · exact ⟨e1, ν, k1, he1, hν, h1, le_rfl, fun k h1 h2 => (hx k h1 h2).2.1, hk1, .inl ⟨rfl, rfl⟩⟩
    · have hz : ∀ k, k < p → (derivative^[k] (P (v - 1))).eval (t v) = 0 := by
        intro k hk
        have := hs (v - 1) (by omega) (by omega) k hk
        rw [Nat.sub_add_cancel (by omega), g2] at this
        rw [this]
        simp
      refine ⟨1, p - 1, v - p, .inr ⟨rfl, hz 0 hp⟩, by omega, fun k hk => hz _ (by omega), by omega, fun k h1 h2 => ?_,
        by omega, .inr rfl⟩
      · exact lt_of_lt_of_le (hx k h1 (by omega)).2.2.2.1 (ht (by omega))
  have := pw_zeros ht huv hp (fun d h1 h2 => hs d (by omega) (by omega)) (fun d h1 h2 => hst d (by omega) (by omega)) hdeg hne
    (k0 := a) (k1 := b) (x := x) (fun k h1 h2 => ⟨m4 k h1 (by omega), n4 k (by omega) h2, fun d d1 d2 =>
      (hx k (by omega) (by omega)).2.2.2.2 d (by omega) (by omega)⟩)
    (fun i j h1 h2 h3 => hinc i j (by omega) h2 (by omega)) m0 n0 m1 n1 m2 n2 (by omega)
  omega

end DDC.Zeros
