import Mathlib.Analysis.Calculus.MeanValue
import Mathlib.Analysis.Calculus.Deriv.Polynomial

/-!
# Counting the zeros of a piecewise polynomial function

Rolle's theorem for functions with a right derivative, applied repeatedly to a function whose last derivative
is piecewise constant.
-/

namespace DDC.Zeros

open Set

/-- `f` takes non-zero values of alternating signs, the first one being the sign of `σ`, at `L` successive
points of `[a, β)`. -/
def Alt (f : ℝ → ℝ) (β : ℝ) : Nat → ℝ → ℝ → Prop
  | 0, _, _ => True
  | L + 1, σ, a => ∃ z, a ≤ z ∧ z < β ∧ 0 < σ * f z ∧ Alt f β L (-σ) z

theorem Alt.mono {f : ℝ → ℝ} {β : ℝ} {L : Nat} {σ a a' : ℝ} (h : Alt f β L σ a) (ha : a' ≤ a) : Alt f β L σ a' := by
  cases L with
  | zero => trivial
  | succ L =>
    obtain ⟨z, h1, h2, h3, h4⟩ := h
    exact ⟨z, ha.trans h1, h2, h3, h4⟩

/-- On `[α, β]` the function `f` is continuous and has the right derivative `g`. -/
structure Step (f g : ℝ → ℝ) (α β : ℝ) : Prop where
  cont : ContinuousOn f (Icc α β)
  deriv : ∀ x ∈ Ico α β, HasDerivWithinAt f (g x) (Ici x) x

theorem Step.rise_pos {f g : ℝ → ℝ} {α β : ℝ} (h : Step f g α β) {x y : ℝ} (hx : α ≤ x) (hy : y ≤ β) (hxy : x < y)
    (hr : f x < f y) : ∃ ξ, x ≤ ξ ∧ ξ < y ∧ 0 < g ξ := by
  by_contra hcon
  push Not at hcon
  have := image_le_of_deriv_right_le_deriv_boundary (f := f) (f' := g) (a := x) (b := y)
    (h.cont.mono (Icc_subset_Icc hx hy)) (fun z hz => h.deriv z ⟨hx.trans hz.1, hz.2.trans_le hy⟩)
    (B := fun _ => f x) (B' := fun _ => 0) le_rfl continuousOn_const (fun z _ => hasDerivWithinAt_const _ _ _)
    (fun z hz => hcon z hz.1 hz.2) (right_mem_Icc.2 hxy.le)
  exact absurd hr (not_lt.2 this)

theorem Step.neg {f g : ℝ → ℝ} {α β : ℝ} (h : Step f g α β) : Step (fun x => -f x) (fun x => -g x) α β :=
  ⟨h.cont.neg, fun x hx => (h.deriv x hx).neg⟩

/-- Where `σ f` rises, `σ g` is positive somewhere. -/
theorem Step.rise {f g : ℝ → ℝ} {α β : ℝ} (h : Step f g α β) {σ x y : ℝ} (hx : α ≤ x) (hy : y ≤ β) (hxy : x < y)
    (hr : 0 < σ * (f y - f x)) : ∃ ξ, x ≤ ξ ∧ ξ < y ∧ 0 < σ * g ξ := by
  rcases lt_trichotomy σ 0 with hσ | rfl | hσ
  · obtain ⟨ξ, h1, h2, h3⟩ := h.neg.rise_pos hx hy hxy (by
      have : f y - f x < 0 := by
        by_contra hc
        exact absurd hr (not_lt.2 (mul_nonpos_of_nonpos_of_nonneg hσ.le (not_lt.1 hc)))
      linarith)
    exact ⟨ξ, h1, h2, mul_pos_of_neg_of_neg hσ (by linarith)⟩
  · simp at hr
  · obtain ⟨ξ, h1, h2, h3⟩ := h.rise_pos hx hy hxy (by
      have := (mul_pos_iff_of_pos_left hσ).1 hr
      linarith)
    exact ⟨ξ, h1, h2, mul_pos hσ h3⟩

/-- Alternations of `f` give alternations of its derivative. -/
theorem Step.alt {f g : ℝ → ℝ} {α β : ℝ} (h : Step f g α β) : ∀ (L : Nat) (σ a : ℝ), α ≤ a → Alt f β (L + 1) σ a →
    ∃ z, a ≤ z ∧ z < β ∧ 0 < σ * f z ∧ Alt g β (if f β = 0 then L + 1 else L) (-σ) z := by
  intro L
  induction L with
  | zero =>
    rintro σ a ha ⟨z, h1, h2, h3, -⟩
    refine ⟨z, h1, h2, h3, ?_⟩
    split_ifs with hb
    · obtain ⟨ξ, g1, g2, g3⟩ := h.rise (σ := -σ) (ha.trans h1) le_rfl h2 (by rw [hb]; linarith)
      exact ⟨ξ, g1, g2, g3, trivial⟩
    · trivial
  | succ L ih =>
    rintro σ a ha ⟨z, h1, h2, h3, h4⟩
    obtain ⟨w, k1, k2, k3, k4⟩ := ih (-σ) z (ha.trans h1) h4
    have hzw : z < w := by
      refine lt_of_le_of_ne k1 fun e => ?_
      rw [e] at h3
      linarith
    obtain ⟨ξ, g1, g2, g3⟩ := h.rise (σ := -σ) (ha.trans h1) k2.le hzw (by linarith)
    refine ⟨z, h1, h2, h3, ?_⟩
    have e : (if f β = 0 then L + 1 + 1 else L + 1) = (if f β = 0 then L + 1 else L) + 1 := by split_ifs <;> rfl
    rw [e]
    exact ⟨ξ, g1, g2.trans k2, g3, k4.mono g2.le⟩

/-- One alternation more for each end where `f` vanishes, one less for the loss of a derivative. -/
theorem Step.alt_ends {f g : ℝ → ℝ} {α β : ℝ} (h : Step f g α β) {L : Nat} {σ : ℝ} (hA : Alt f β (L + 1) σ α) :
    ∃ τ, Alt g β (L + (if f α = 0 then 1 else 0) + (if f β = 0 then 1 else 0)) τ α := by
  obtain ⟨z, h1, h2, h3, h4⟩ := h.alt L σ α le_rfl hA
  have e : (if f β = 0 then L + 1 else L) = L + (if f β = 0 then 1 else 0) := by split_ifs <;> rfl
  rw [e] at h4
  by_cases ha : f α = 0
  · rw [if_pos ha, Nat.add_right_comm]
    have hz : α < z := lt_of_le_of_ne h1 fun e => by rw [← e, ha] at h3; simp at h3
    obtain ⟨ξ, g1, g2, g3⟩ := h.rise (σ := σ) le_rfl h2.le hz (by rw [ha]; linarith)
    exact ⟨σ, ξ, g1, g2.trans h2, g3, h4.mono g2.le⟩
  · rw [if_neg ha, Nat.add_zero]
    exact ⟨-σ, h4.mono h1⟩

/-- A function with `M` constant pieces has at most `M - 1` sign changes. -/
theorem alt_const {f : ℝ → ℝ} {β : ℝ} {M : Nat} {cell : ℝ → Nat} {v : Nat → ℝ} {a : ℝ}
    (hm : ∀ x y, a ≤ x → x ≤ y → y < β → cell x ≤ cell y) (hM : ∀ x, a ≤ x → x < β → cell x < M)
    (hf : ∀ x, a ≤ x → x < β → f x = v (cell x)) {L : Nat} {σ : ℝ} (hA : Alt f β L σ a) : L ≤ M := by
  have key : ∀ (L : Nat) (σ w : ℝ), a ≤ w → w < β → 0 < -σ * f w → Alt f β L σ w → cell w + L + 1 ≤ M := by
    intro L
    induction L with
    | zero => intro σ w h1 h2 _ _; exact hM w h1 h2
    | succ L ih =>
      rintro σ w h1 h2 h3 ⟨z, k1, k2, k3, k4⟩
      have := ih (-σ) z (h1.trans k1) k2 (by rwa [neg_neg]) k4
      have hle := hm w z h1 k1 k2
      have hne : cell w ≠ cell z := fun e => by
        rw [hf w h1 h2, e, ← hf z (h1.trans k1) k2] at h3
        linarith
      omega
  cases L with
  | zero => exact Nat.zero_le _
  | succ L =>
    obtain ⟨z, h1, h2, h3, h4⟩ := hA
    have := key L (-σ) z h1 h2 (by rwa [neg_neg]) h4
    omega

/-- A function with its successive derivatives, the last of which is piecewise constant with `M` pieces. -/
structure Tower (F : Nat → ℝ → ℝ) (q M : Nat) (α β : ℝ) : Prop where
  step : ∀ k, k < q → Step (F k) (F (k + 1)) α β
  const : ∃ (cell : ℝ → Nat) (v : Nat → ℝ), (∀ x y, α ≤ x → x ≤ y → y < β → cell x ≤ cell y) ∧
    (∀ x, α ≤ x → x < β → cell x < M) ∧ ∀ x, α ≤ x → x < β → F q x = v (cell x)

theorem Tower.tail {F : Nat → ℝ → ℝ} {q M : Nat} {α β : ℝ} (h : Tower F (q + 1) M α β) :
    Tower (fun k => F (k + 1)) q M α β :=
  ⟨fun k hk => h.step (k + 1) (by omega), h.const⟩

/-- Sign changes and the orders `μ`, `ν` of vanishing at the two ends. -/
theorem Tower.count : ∀ {q : Nat} {F : Nat → ℝ → ℝ} {M : Nat} {α β : ℝ}, Tower F q M α β → ∀ {L : Nat} {σ : ℝ},
    0 < L → Alt (F 0) β L σ α → ∀ {μ ν : Nat}, μ ≤ q → ν ≤ q → (∀ k, k < μ → F k α = 0) → (∀ k, k < ν → F k β = 0) →
    L + μ + ν ≤ M + q := by
  intro q
  induction q with
  | zero =>
    intro F M α β h L σ hL hA μ ν hμ hν _ _
    obtain ⟨cell, v, h1, h2, h3⟩ := h.const
    have := alt_const h1 h2 h3 hA
    omega
  | succ q ih =>
    intro F M α β h L σ hL hA μ ν hμ hν h0 h1
    obtain ⟨L, rfl⟩ : ∃ l, L = l + 1 := ⟨L - 1, by omega⟩
    obtain ⟨τ, hτ⟩ := (h.step 0 (by omega)).alt_ends hA
    have hM : 0 < M := by
      obtain ⟨z, z1, z2, -, -⟩ := hA
      obtain ⟨cell, v, -, c2, -⟩ := h.const
      have := c2 z z1 z2
      omega
    by_cases hL1 : 0 < L + (if F 0 α = 0 then 1 else 0) + (if F 0 β = 0 then 1 else 0)
    · have := ih h.tail hL1 hτ (μ := μ - 1) (ν := ν - 1) (by omega) (by omega) (fun k hk => h0 (k + 1) (by omega))
        (fun k hk => h1 (k + 1) (by omega))
      have a1 : μ ≤ μ - 1 + if F 0 α = 0 then 1 else 0 := by
        rcases Nat.eq_zero_or_pos μ with e | e
        · omega
        · rw [if_pos (h0 0 e)]; omega
      have a2 : ν ≤ ν - 1 + if F 0 β = 0 then 1 else 0 := by
        rcases Nat.eq_zero_or_pos ν with e | e
        · omega
        · rw [if_pos (h1 0 e)]; omega
      omega
    · have a1 : μ = 0 := by
        by_contra e
        rw [if_pos (h0 0 (by omega))] at hL1
        omega
      have a2 : ν = 0 := by
        by_contra e
        rw [if_pos (h1 0 (by omega))] at hL1
        omega
      omega

/-- Zeros of `f` at `a` and at `Z` later points: alternations of its derivative. -/
theorem Step.zeros {f g : ℝ → ℝ} {α β : ℝ} (h : Step f g α β)
    (hne : ∀ x y, α ≤ x → x < y → y ≤ β → ∃ w, x < w ∧ w < y ∧ f w ≠ 0) :
    ∀ (Z : Nat) (a : ℝ) (x : Nat → ℝ), α ≤ a → a < β → f a = 0 → (∀ i, i < Z → a < x i ∧ x i < β ∧ f (x i) = 0) →
      (∀ i j, i < j → j < Z → x i < x j) → ∃ τ, (τ = 1 ∨ τ = -1) ∧ Alt g β (Z + 1 + (if f β = 0 then 1 else 0)) τ a := by
  have two : ∀ x y, α ≤ x → x < y → y ≤ β → f x = 0 → ∃ w σ, x < w ∧ w < y ∧ (σ = 1 ∨ σ = -1) ∧ 0 < σ * f w ∧
      ∃ ξ, x ≤ ξ ∧ ξ < w ∧ 0 < σ * g ξ := by
    intro x y h1 h2 h3 h4
    obtain ⟨w, w1, w2, w3⟩ := hne x y h1 h2 h3
    obtain ⟨σ, s1, s2⟩ : ∃ σ : ℝ, (σ = 1 ∨ σ = -1) ∧ 0 < σ * f w := by
      rcases lt_or_gt_of_ne w3 with c | c
      · exact ⟨-1, .inr rfl, by linarith⟩
      · exact ⟨1, .inl rfl, by linarith⟩
    exact ⟨w, σ, w1, w2, s1, s2, h.rise h1 (w2.le.trans h3) w1 (by rw [h4]; linarith)⟩
  intro Z
  induction Z with
  | zero =>
    intro a x h1 h2 h3 _ _
    by_cases hb : f β = 0
    · obtain ⟨w, σ, w1, w2, s1, s2, ξ, e1, e2, e3⟩ := two a β h1 h2 le_rfl h3
      obtain ⟨η, d1, d2, d3⟩ := h.rise (σ := -σ) (h1.trans w1.le) le_rfl w2 (by rw [hb]; linarith)
      rw [if_pos hb]
      exact ⟨σ, s1, ξ, e1, e2.trans w2, e3, η, e2.le.trans d1, d2, d3, trivial⟩
    · rw [if_neg hb]
      obtain ⟨σ, s1, s2⟩ : ∃ σ : ℝ, (σ = 1 ∨ σ = -1) ∧ 0 < σ * f β := by
        rcases lt_or_gt_of_ne hb with c | c
        · exact ⟨-1, .inr rfl, by linarith⟩
        · exact ⟨1, .inl rfl, by linarith⟩
      obtain ⟨ξ, e1, e2, e3⟩ := h.rise (σ := σ) h1 le_rfl h2 (by rw [h3]; linarith)
      exact ⟨σ, s1, ξ, e1, e2, e3, trivial⟩
  | succ Z ih =>
    intro a x h1 h2 h3 hx hinc
    obtain ⟨x1, x2, x3⟩ := hx 0 (by omega)
    obtain ⟨τ, t1, t2⟩ := ih (x 0) (fun i => x (i + 1)) (h1.trans x1.le) x2 x3
      (fun i hi => ⟨hinc 0 (i + 1) (by omega) (by omega), (hx (i + 1) (by omega)).2⟩)
      (fun i j hij hj => hinc (i + 1) (j + 1) (by omega) (by omega))
    obtain ⟨w, σ, w1, w2, s1, s2, ξ, e1, e2, e3⟩ := two a (x 0) h1 x1 x2.le h3
    obtain ⟨η, d1, d2, d3⟩ := h.rise (σ := -σ) (h1.trans w1.le) x2.le w2 (by rw [x3]; linarith)
    rw [show Z + 1 + 1 + (if f β = 0 then 1 else 0) = (Z + 1 + (if f β = 0 then 1 else 0)) + 1 by omega]
    by_cases hτ : τ = σ
    · subst hτ
      refine ⟨-τ, by rcases s1 with rfl | rfl <;> simp, η, w1.le.trans d1, d2.trans x2, d3, ?_⟩
      rw [neg_neg]
      exact t2.mono d2.le
    · have : τ = -σ := by
        rcases s1 with rfl | rfl <;> rcases t1 with rfl | rfl <;> simp at hτ ⊢
      subst this
      exact ⟨σ, s1, ξ, e1, e2.trans (w2.trans x2), e3, t2.mono (e2.trans w2).le⟩

/-- A function that does not vanish on any interval has at most `M + q - 1` zeros, counted with the zeros of
the derivatives at the two ends. -/
theorem Tower.zeros {F : Nat → ℝ → ℝ} {q M : Nat} {α β : ℝ} (h : Tower F q M α β) (hq : 0 < q) (hαβ : α < β)
    (hne : ∀ x y, α ≤ x → x < y → y ≤ β → ∃ w, x < w ∧ w < y ∧ F 0 w ≠ 0) {Z : Nat} {x : Nat → ℝ}
    (hx : ∀ i, i < Z → α < x i ∧ x i < β ∧ F 0 (x i) = 0) (hinc : ∀ i j, i < j → j < Z → x i < x j) {e0 e1 μ ν : Nat}
    (he0 : e0 = 0 ∨ e0 = 1 ∧ F 0 α = 0) (he1 : e1 = 0 ∨ e1 = 1 ∧ F 0 β = 0) (hμ : μ < q) (hν : ν < q)
    (h0 : ∀ k, k < μ → F (k + 1) α = 0) (h1 : ∀ k, k < ν → F (k + 1) β = 0) (hv : 0 < Z + e0 + e1) :
    Z + (e0 + μ) + (e1 + ν) + 1 ≤ M + q := by
  obtain ⟨q, rfl⟩ : ∃ r, q = r + 1 := ⟨q - 1, by omega⟩
  have hs := h.step 0 (by omega)
  have fin : ∀ (L : Nat) (τ : ℝ), Alt (F 1) β L τ α → Z + (if F 0 α = 0 then 1 else 0) + (if F 0 β = 0 then 1 else 0) ≤ L →
      0 < L → Z + (e0 + μ) + (e1 + ν) + 1 ≤ M + (q + 1) := by
    intro L τ hA hL hL0
    have a1 : e0 ≤ if F 0 α = 0 then 1 else 0 := by
      rcases he0 with rfl | ⟨rfl, e⟩
      · exact Nat.zero_le _
      · rw [if_pos e]
    have a2 : e1 ≤ if F 0 β = 0 then 1 else 0 := by
      rcases he1 with rfl | ⟨rfl, e⟩
      · exact Nat.zero_le _
      · rw [if_pos e]
    have := h.tail.count hL0 hA (μ := μ) (ν := ν) (by omega) (by omega) (fun k hk => h0 k hk) (fun k hk => h1 k hk)
    omega
  by_cases ha : F 0 α = 0
  · obtain ⟨τ, -, hτ⟩ := hs.zeros hne Z α x le_rfl hαβ ha hx hinc
    exact fin _ τ hτ (by rw [if_pos ha]) (by omega)
  · rcases Nat.eq_zero_or_pos Z with rfl | hZ
    · have e0 : e0 = 0 := he0.resolve_right fun h => ha h.2
      have hb : F 0 β = 0 := (he1.resolve_left (by omega)).2
      obtain ⟨ξ, e1, e2, e3⟩ := hs.rise (σ := -F 0 α) le_rfl le_rfl hαβ (by
        rw [hb]
        have := mul_self_pos.2 ha
        linarith)
      exact fin 1 (-F 0 α) ⟨ξ, e1, e2, e3, trivial⟩ (by rw [if_neg ha, if_pos hb]) (by omega)
    · obtain ⟨x1, x2, x3⟩ := hx 0 hZ
      obtain ⟨Z, rfl⟩ : ∃ z, Z = z + 1 := ⟨Z - 1, by omega⟩
      obtain ⟨τ, -, hτ⟩ := hs.zeros hne Z (x 0) (fun i => x (i + 1)) x1.le x2 x3
        (fun i hi => ⟨hinc 0 (i + 1) (by omega) (by omega), (hx (i + 1) (by omega)).2⟩)
        (fun i j hij hj => hinc (i + 1) (j + 1) (by omega) (by omega))
      exact fin _ τ (hτ.mono x1.le) (by rw [if_neg ha, Nat.add_zero]) (by omega)

end DDC.Zeros
