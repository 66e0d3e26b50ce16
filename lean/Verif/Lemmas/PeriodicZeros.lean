import Verif.Lemmas.SplineMap

/-!
# The zeros of a periodic spline

Sign changes counted around the circle: the number of sign changes of a periodic function is at most that of
its derivative, and is even.  A periodic spline with an odd number `n` of knots and `n` zeros per period, the
`k`-th of them inside the support of the `k`-th B-spline, is zero.
-/

namespace DDC.Zeros

open Set Polynomial

theorem Alt.mono_right {f : ℝ → ℝ} {β β' : ℝ} (hb : β ≤ β') : ∀ {L : Nat} {σ a : ℝ}, Alt f β L σ a → Alt f β' L σ a
  | 0, _, _, _ => trivial
  | _ + 1, _, _, ⟨z, h1, h2, h3, h4⟩ => ⟨z, h1, h2.trans_le hb, h3, h4.mono_right hb⟩

theorem Step.mono {f g : ℝ → ℝ} {α β α' β' : ℝ} (h : Step f g α β) (ha : α ≤ α') (hb : β' ≤ β) : Step f g α' β' :=
  ⟨h.cont.mono (Icc_subset_Icc ha hb), fun x hx => h.deriv x ⟨ha.trans hx.1, hx.2.trans_le hb⟩⟩

/-- Between `M + 2` points where the signs of `f` alternate there are `M + 1` points where those of `g` do. -/
theorem Step.between {f g : ℝ → ℝ} {α β : ℝ} (h : Step f g α β) {e : ℝ} (he : e ≤ β) : ∀ (M : Nat) (σ a : ℝ), α ≤ a → a < e →
    0 < σ * f a → Alt f e M (-σ) a → 0 < (-1) ^ (M + 1) * σ * f e → Alt g e (M + 1) (-σ) a := by
  intro M
  induction M with
  | zero =>
    intro σ a ha hae h1 _ h2
    have h2 : 0 < (-1) ^ (0 + 1) * σ * f e := h2
    rw [zero_add, pow_one] at h2
    obtain ⟨ξ, k1, k2, k3⟩ := h.rise (σ := -σ) ha he hae (by linarith)
    exact ⟨ξ, k1, k2, k3, trivial⟩
  | succ M ih =>
    rintro σ a ha hae h1 ⟨z, z1, z2, z3, z4⟩ h2
    have hz : a < z := lt_of_le_of_ne z1 fun e => by rw [← e] at z3; linarith
    obtain ⟨ξ, k1, k2, k3⟩ := h.rise (σ := -σ) ha (z2.le.trans he) hz (by linarith)
    have := ih (-σ) z (ha.trans z1) z2 z3 z4 (by rw [pow_succ] at h2; linarith)
    exact ⟨ξ, k1, k2.trans z2, k3, this.mono k2.le⟩

/-- A periodic function that changes sign `2 m` times around the circle: so does its derivative. -/
theorem Step.cyclic {f g : ℝ → ℝ} {α β len : ℝ} (h : Step f g α β) (hlen : 0 < len)
    (hper : ∀ x, α ≤ x → x + len < β → f (x + len) = f x) {a : ℝ} (ha : α ≤ a) (hb : a + 2 * len ≤ β) {m : Nat} {σ : ℝ}
    (hA : Alt f (a + len) (2 * m + 2) σ a) : ∃ a', a ≤ a' ∧ a' < a + len ∧ Alt g (a' + len) (2 * m + 2) (-σ) a' := by
  obtain ⟨z, z1, z2, z3, z4⟩ := hA
  refine ⟨z, z1, z2, ?_⟩
  refine h.between (by linarith) (2 * m + 1) σ z (ha.trans z1) (by linarith) z3 (Alt.mono_right (by linarith) z4) ?_
  rw [hper z (ha.trans z1) (by linarith), show 2 * m + 1 + 1 = 2 * (m + 1) by ring, pow_mul]
  simpa using z3

/-- The last of the points where the signs alternate, for a function that is constant on the cells. -/
theorem alt_last {f : ℝ → ℝ} {β : ℝ} {cell : ℝ → Nat} {v : Nat → ℝ} {a : ℝ}
    (hm : ∀ x y, a ≤ x → x ≤ y → y < β → cell x ≤ cell y) (hf : ∀ x, a ≤ x → x < β → f x = v (cell x)) :
    ∀ (L : Nat) (σ w : ℝ), a ≤ w → w < β → 0 < σ * f w → Alt f β L (-σ) w →
      ∃ z, w ≤ z ∧ z < β ∧ cell w + L ≤ cell z ∧ 0 < (-1) ^ L * σ * f z := by
  intro L
  induction L with
  | zero => intro σ w h1 h2 h3 _; exact ⟨w, le_rfl, h2, le_rfl, by simpa using h3⟩
  | succ L ih =>
    rintro σ w h1 h2 h3 ⟨z, k1, k2, k3, k4⟩
    obtain ⟨y, y1, y2, y3, y4⟩ := ih (-σ) z (h1.trans k1) k2 k3 k4
    have hle := hm w z h1 k1 k2
    have hne : cell w ≠ cell z := fun e => by
      rw [hf w h1 h2, e, ← hf z (h1.trans k1) k2] at h3
      linarith
    exact ⟨y, k1.trans y1, y2, by omega, by rw [pow_succ]; linarith⟩

/-- A strictly increasing sequence of knots that is periodic. -/
structure Circle (T : Nat → ℝ) (n : Nat) (len : ℝ) : Prop where
  strict : StrictMono T
  period : ∀ i, T (i + n) = T i + len
  pos : 0 < n

variable {T : Nat → ℝ} {n : Nat} {len : ℝ}

theorem Circle.len_pos (h : Circle T n len) : 0 < len := by
  have := h.period 0
  have := h.strict (show 0 < 0 + n by have := h.pos; omega)
  linarith

theorem Circle.turns (h : Circle T n len) (i q : Nat) : T (i + q * n) = T i + q * len := by
  induction q with
  | zero => simp
  | succ q ih =>
    rw [show i + (q + 1) * n = i + q * n + n by ring, h.period, ih]
    push_cast
    ring

/-- The polynomial pieces of a B-spline, one period further. -/
theorem Circle.piece (h : Circle T n len) (c p i : Nat) :
    (Spec.piece T (c + n) p (i + n)).comp (X + C len) = Spec.piece T c p i := by
  induction p generalizing i with
  | zero =>
    rw [Spec.piece, Spec.piece]
    by_cases e : i = c
    · rw [if_pos e, if_pos (by omega)]; simp
    · rw [if_neg e, if_neg (by omega)]; simp
  | succ p ih =>
    rw [Spec.piece_succ, Spec.piece_succ, show i + n + p + 1 = i + p + 1 + n by ring, show i + n + p + 2 = i + p + 2 + n by ring,
      show i + n + 1 = i + 1 + n by ring]
    simp only [add_comp, mul_comp, sub_comp, X_comp, C_comp, ih, h.period, map_add]
    have e1 : T (i + p + 1) + len - (T i + len) = T (i + p + 1) - T i := by ring
    have e2 : T (i + p + 2) + len - (T (i + 1) + len) = T (i + p + 2) - T (i + 1) := by ring
    rw [e1, e2]
    ring

theorem derivative_turn (Q : ℝ[X]) (len : ℝ) (k : Nat) :
    derivative^[k] (Q.comp (X + C len)) = (derivative^[k] Q).comp (X + C len) := by
  induction k with
  | zero => rfl
  | succ k ih =>
    rw [Function.iterate_succ_apply', Function.iterate_succ_apply', ih, derivative_comp]
    simp

/-- The pieces of a spline with periodic coefficients. -/
theorem Circle.splinePiece (h : Circle T n len) {x : Nat → ℝ} (hx : ∀ J, x (J + n) = x J) {p N c : Nat} (hc : p ≤ c)
    (hN : c + n < N) : (Spec.splinePiece T p N x (c + n)).comp (X + C len) = Spec.splinePiece T p N x c := by
  have h1 : Spec.splinePiece T p N x (c + n) =
      ∑ J ∈ Finset.range (N - n), C (x (J + n)) * Spec.piece T (c + n) p (J + n) := by
    rw [Spec.splinePiece, show N = n + (N - n) by omega, Finset.sum_range_add,
      Finset.sum_eq_zero (s := Finset.range n) fun J hJ => by
        rw [Spec.piece_zero T (c + n) p J (by have := Finset.mem_range.1 hJ; omega), mul_zero], zero_add,
      show n + (N - n) - n = N - n by omega]
    exact Finset.sum_congr rfl fun J _ => by rw [Nat.add_comm]
  have h2 : Spec.splinePiece T p N x c = ∑ J ∈ Finset.range (N - n), C (x J) * Spec.piece T c p J := by
    rw [Spec.splinePiece, show N = N - n + n by omega, Finset.sum_range_add,
      Finset.sum_eq_zero (s := Finset.range n) fun J hJ => by
        rw [Spec.piece_zero T c p _ (by omega), mul_zero], add_zero, show N - n + n - n = N - n by omega]
  rw [h1, h2, ← coe_compRingHom_apply, map_sum]
  refine Finset.sum_congr rfl fun J _ => ?_
  rw [coe_compRingHom_apply, mul_comp, C_comp, h.piece, hx]

/-- The pieces do not depend on the number of coefficients, if there are enough of them. -/
theorem splinePiece_stable (T x : Nat → ℝ) (p : Nat) {N c : Nat} (h : c < N) :
    Spec.splinePiece T p N x c = Spec.splinePiece T p (c + 1) x c := by
  obtain ⟨d, rfl⟩ := Nat.exists_eq_add_of_le (show c + 1 ≤ N from h)
  rw [Spec.splinePiece, Finset.sum_range_add, Finset.sum_eq_zero (s := Finset.range d) fun J _ => by
    rw [Spec.piece_zero T c p _ (by omega), mul_zero], add_zero]
  rfl

/-- The pieces of any spline, one period further. -/
theorem Circle.turn (h : Circle T n len) (x : Nat → ℝ) {p c : Nat} (hc : p ≤ c) (z : ℝ) :
    (Spec.splinePiece T p (c + n + 1) x (c + n)).eval (z + len) =
      (Spec.splinePiece T p (c + 1) (fun J => x (J + n)) c).eval z := by
  have h1 : Spec.splinePiece T p (c + n + 1) x (c + n) =
      ∑ J ∈ Finset.range (c + 1), C (x (J + n)) * Spec.piece T (c + n) p (J + n) := by
    rw [Spec.splinePiece, show c + n + 1 = n + (c + 1) by omega, Finset.sum_range_add,
      Finset.sum_eq_zero (s := Finset.range n) fun J hJ => by
        rw [Spec.piece_zero T (c + n) p J (by have := Finset.mem_range.1 hJ; omega), mul_zero], zero_add]
    exact Finset.sum_congr rfl fun J _ => by rw [Nat.add_comm n J]
  rw [h1, Spec.splinePiece, eval_finsetSum, eval_finsetSum]
  refine Finset.sum_congr rfl fun J _ => ?_
  have := congrArg (eval z) (h.piece c p J)
  rw [eval_comp] at this
  simp only [eval_add, eval_X, eval_C] at this
  rw [eval_mul, eval_mul, eval_C, eval_C, this]

/-- No periodic spline with an odd number of knots has as many zeros as knots in a period, unless it is zero
between two knots. -/
theorem Circle.odd (h : Circle T n len) (hn : n % 2 = 1) {p N : Nat} (hp : 0 < p) (hN : 2 * p + 1 + (p + 3) * n ≤ N)
    {x : Nat → ℝ} (hx : ∀ J, x (J + n) = x J) {y : Nat → ℝ} (hy : StrictMono y) (hyp : ∀ k, y (k + n) = y k + len)
    (hyT : ∀ k, T k < y k ∧ y k < T (k + p + 1))
    (hz : ∀ k c, p ≤ c → c < N → T c ≤ y k → y k < T (c + 1) → (Spec.splinePiece T p N x c).eval (y k) = 0) :
    ∃ c, p ≤ c ∧ c < N ∧ Spec.splinePiece T p N x c = 0 := by
  by_contra hcon
  push Not at hcon
  have hT := h.strict.monotone
  have hlen := h.len_pos
  have hn0 := h.pos
  have hpN : p < N := by omega
  have hs : Smooth T p N p (Spec.splinePiece T p N x) := by
    intro c h1 h2 k hk
    rw [Spec.splinePiece_deriv, Spec.splinePiece_deriv]
    refine Finset.sum_congr rfl fun J _ => ?_
    rw [Spec.basisDeriv, Spec.basisDeriv, Spec.piece_smooth hT (h.strict (by omega)) (h.strict (by omega)) hk]
  have hdeg : ∀ c, (Spec.splinePiece T p N x c).natDegree ≤ p := fun c =>
    natDegree_sum_le_of_forall_le _ _ fun J _ => (natDegree_C_mul_le _ _).trans (Spec.natDegree_piece T c p J)
  have hst : ∀ c, p ≤ c → c < N → T c < T (c + 1) := fun c _ _ => h.strict (by omega)
  have htow := pw_tower hT hpN hs hst hdeg
  set F := pw T N (Spec.splinePiece T p N x) with hF
  have hend : T (2 * p + 1) + (p + 3) * len ≤ T N := by
    have := h.turns (2 * p + 1) (p + 3)
    push_cast at this
    rw [← this]
    exact hT hN
  have hFp : ∀ k z, T p ≤ z → z + len < T N → F k (z + len) = F k z := by
    intro k z h1 h2
    obtain ⟨c, c1, c2, c3, c4⟩ := exists_cell hpN h1 (by linarith)
    have hc : c + n < N := by
      by_contra hc
      have := hT (show N ≤ c + n by omega)
      rw [h.period] at this
      linarith
    rw [hF, pw_eq hT hc (by rw [h.period]; linarith) (by rw [show c + n + 1 = c + 1 + n by ring, h.period]; linarith),
      pw_eq hT c2 c3 c4, ← h.splinePiece hx c1 hc, derivative_turn, eval_comp]
    simp
  have hzero : ∀ k, p ≤ k → y k < T N → F 0 (y k) = 0 := by
    intro k hk hkN
    obtain ⟨c, c1, c2, c3, c4⟩ := exists_cell hpN ((hT hk).trans (hyT k).1.le) hkN
    rw [hF, pw_eq hT c2 c3 c4]
    exact hz k c c1 c2 c3 c4
  have hy0 := hyT p
  rw [show p + p + 1 = 2 * p + 1 by ring] at hy0
  have hp3 : (1 : ℝ) ≤ p := by exact_mod_cast hp
  have hyN : y (p + n) < T N := by
    rw [hyp]
    nlinarith [mul_nonneg (sub_nonneg.2 hp3) hlen.le]
  -- the zeros
  obtain ⟨τ, hτ, hA⟩ := ((htow.step 0 hp).mono (α' := T p) (β' := y (p + n)) le_rfl hyN.le).zeros
    (fun a b h1 h2 h3 => pw_ne hT hpN hcon h1 h2 (h3.trans hyN.le)) (n - 1) (y p) (fun i => y (p + 1 + i)) hy0.1.le
    (hy (by omega)) (hzero p le_rfl ((hy (by omega : p < p + n)).trans hyN))
    (fun i hi => ⟨hy (by omega), hy (by omega), hzero _ (by omega) ((hy (by omega : p + 1 + i < p + n)).trans hyN)⟩)
    (fun i j hij hj => hy (by omega))
  rw [if_pos (hzero _ (by omega) hyN), hyp] at hA
  obtain ⟨m, hm⟩ : ∃ m, n = 2 * m + 1 := ⟨n / 2, by omega⟩
  rw [show n - 1 + 1 + 1 = 2 * m + 2 by omega, zero_add] at hA
  -- the derivatives
  have hall : ∀ k, k < p → ∃ a σ, T p ≤ a ∧ a < T (2 * p + 1) + k * len ∧ Alt (F (k + 1)) (a + len) (2 * m + 2) σ a := by
    intro k
    induction k with
    | zero =>
      intro _
      exact ⟨y p, τ, hy0.1.le, by simpa using hy0.2, hA⟩
    | succ k ih =>
      intro hk
      obtain ⟨a, σ, a1, a2, a3⟩ := ih (by omega)
      have hkp : (k : ℝ) + 1 ≤ p := by exact_mod_cast hk.le
      have : (k + 2 : ℝ) * len ≤ (p + 3) * len := mul_le_mul_of_nonneg_right (by linarith) hlen.le
      obtain ⟨a', b1, b2, b3⟩ := (htow.step (k + 1) hk).cyclic hlen (hFp (k + 1)) a1 (by linarith) a3
      exact ⟨a', -σ, a1.trans b1, by push_cast; linarith, b3⟩
  obtain ⟨a, σ, a1, a2, a3⟩ := hall (p - 1) (by omega)
  rw [show p - 1 + 1 = p by omega, Nat.cast_sub hp, Nat.cast_one] at *
  have hp5 : (p - 1 + 2 : ℝ) * len ≤ (p + 3) * len := mul_le_mul_of_nonneg_right (by linarith) hlen.le
  have haN : a + 2 * len ≤ T N := by linarith
  -- the last derivative
  have hconst : ∀ z, T p ≤ z → z < T N → F p z = (derivative^[p] (Spec.splinePiece T p N x (cellOf T N z))).eval 0 := by
    intro z h1 h2
    have : (derivative^[p] (Spec.splinePiece T p N x (cellOf T N z))).natDegree = 0 := by
      have := natDegree_iterate_derivative (Spec.splinePiece T p N x (cellOf T N z)) p
      have := hdeg (cellOf T N z)
      omega
    rw [hF, pw, eq_C_of_natDegree_eq_zero this]
    simp
  obtain ⟨w, w1, w2, w3, w4⟩ := a3
  obtain ⟨z, z1, z2, z3, z4⟩ := alt_last (f := F p) (β := a + len) (cell := cellOf T N)
    (v := fun c => (derivative^[p] (Spec.splinePiece T p N x c)).eval 0) (a := a) (fun u v _ huv _ => cellOf_mono huv)
    (fun u h1 h2 => hconst u (a1.trans h1) (by linarith)) (2 * m + 1) σ w w1 w2 w3 w4
  obtain ⟨c, c1, c2, c3, c4⟩ := exists_cell hpN (a1.trans w1) (by linarith : w < T N)
  have hc : c + n < N := by
    by_contra hc
    have := hT (show N ≤ c + n by omega)
    rw [h.period] at this
    linarith
  have e1 : cellOf T N w = c := cellOf_eq hT c2 c3 c4
  have e2 : cellOf T N (w + len) = c + n := cellOf_eq hT hc (by rw [h.period]; linarith)
    (by rw [show c + n + 1 = c + 1 + n by ring, h.period]; linarith)
  have h3 : cellOf T N z ≤ cellOf T N (w + len) := cellOf_mono (by linarith)
  have e3 : cellOf T N z = cellOf T N (w + len) := by omega
  have e4 : F p z = F p w := by
    rw [← hFp p w (a1.trans w1) (by linarith), hconst z (a1.trans (w1.trans z1)) (by linarith),
      hconst (w + len) (by linarith) (by linarith), e3]
  rw [e4, pow_succ, pow_mul] at z4
  norm_num at z4
  linarith

/-- The Schoenberg–Whitney theorem for periodic splines with an odd number of knots. -/
theorem Circle.unique (h : Circle T n len) (hn : n % 2 = 1) {p : Nat} (hp : 0 < p)
    {x : Nat → ℝ} (hx : ∀ J, x (J + n) = x J) {y : Nat → ℝ} (hy : StrictMono y) (hyp : ∀ k, y (k + n) = y k + len)
    (hyT : ∀ k, T k < y k ∧ y k < T (k + p + 1))
    (hz : ∀ k c, p ≤ c → T c ≤ y k → y k < T (c + 1) → (Spec.splinePiece T p (c + 1) x c).eval (y k) = 0) :
    ∀ J, x J = 0 := by
  have hT := h.strict.monotone
  have hn0 := h.pos
  have hxq : ∀ J q, x (J + q * n) = x J := by
    intro J q
    induction q with
    | zero => simp
    | succ q ih => rw [show J + (q + 1) * n = J + q * n + n by ring, hx, ih]
  obtain ⟨c, c1, c2, c3⟩ := h.odd hn hp le_rfl hx hy hyp hyT
    (fun k c h1 h2 h3 h4 => by rw [splinePiece_stable T x p h2]; exact hz k c h1 h3 h4)
  -- more periods
  obtain ⟨N, hN⟩ : ∃ N, N = c + n + n + p + 2 + (2 * p + 1 + (p + 3) * n) := ⟨_, rfl⟩
  rw [splinePiece_stable T x p c2, ← splinePiece_stable T x p (show c < N by omega)] at c3
  have c4 : Spec.splinePiece T p N x (c + n) = 0 := by
    have := h.splinePiece hx (N := N) c1 (by omega)
    rw [c3] at this
    have e := congrArg (fun Q : ℝ[X] => Q.comp (X - C len)) this
    simpa [comp_assoc] using e
  have hsm : ∀ c' k, k < p → (derivative^[k] (Spec.splinePiece T p N x c')).eval (T (c' + 1)) =
      (derivative^[k] (Spec.splinePiece T p N x (c' + 1))).eval (T (c' + 1)) := by
    intro c' k hk
    rw [Spec.splinePiece_deriv, Spec.splinePiece_deriv]
    refine Finset.sum_congr rfl fun J _ => ?_
    rw [Spec.basisDeriv, Spec.basisDeriv, Spec.piece_smooth hT (h.strict (by omega)) (h.strict (by omega)) hk]
  have hlow : ∀ k, k < p → (derivative^[k] (Spec.splinePiece T p N x (c + 1))).eval (T (c + 1)) = 0 := by
    intro k hk
    rw [← hsm c k hk, c3, iterate_derivative_zero, eval_zero]
  have hupp : ∀ k, k < p → (derivative^[k] (Spec.splinePiece T p N x (c + n - 1))).eval (T (c + n)) = 0 := by
    intro k hk
    have := hsm (c + n - 1) k hk
    rwa [show c + n - 1 + 1 = c + n by omega, c4, iterate_derivative_zero, eval_zero] at this
  have hall : ∀ c', c ≤ c' → c' < c + n → Spec.splinePiece T p N x c' = 0 := by
    intro c' g1 g2
    rcases Nat.eq_or_lt_of_le g1 with rfl | g1
    · exact c3
    · exact Spec.schoenberg_whitney hT (A := c + 1) (B := c + n) (p := p) (N := N) hp (fun _ _ _ => h.strict (by omega)) (x := x)
        (k0 := c + 1) (k1 := c + n - p) (y := y)
        (fun k k1 k2 => ⟨(hT k1).trans_lt (hyT k).1, (hyT k).2.trans_le (hT (by omega)), (hyT k).1, (hyT k).2,
          fun c' h1 h2 h3 h4 => by
            rw [splinePiece_stable T x p (show c' < N by omega)]; exact hz k c' (by omega) h3 h4⟩)
        (fun i j _ hij _ => hy hij) (e0 := 1) (e1 := 1) (μ := p - 1) (ν := p - 1) (.inr ⟨rfl, hlow 0 hp⟩)
        (.inr ⟨rfl, hupp 0 hp⟩) (by omega) (by omega) (fun k hk => hlow _ (by omega)) (fun k hk => hupp _ (by omega))
        (by omega) (by omega) (by omega) c' g1 g2
  intro J
  have hmod := Nat.mod_lt J hn0
  have hd := Nat.div_add_mod (c + n - 1 - J % n) n
  have hd' := Nat.mod_lt (c + n - 1 - J % n) hn0
  have e1 := hxq (J % n) (J / n)
  rw [mul_comm, Nat.mod_add_div] at e1
  rw [e1, ← hxq (J % n) ((c + n - 1 - J % n) / n)]
  rw [mul_comm] at hd
  refine Spec.splinePiece_zero hT (c := J % n + (c + n - 1 - J % n) / n * n) (h.strict (by omega)) (by omega) (by omega)
    (hall _ (by omega) (by omega)) (by omega) le_rfl

end DDC.Zeros
