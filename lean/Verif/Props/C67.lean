import Verif.Lemmas.RoundedNdu
import Verif.Props.C33
import Verif.Props.C60b
import Verif.Props.C61

/-!
# C67 — derivatives of all orders of B-splines and of splines with rounding
-/

namespace DDC.Props

open One Rounded Spec Finset Polynomial

variable {fl : Rat → Rat}

/-- Specification: the entry `(r, k)` of the array is the derivative of order `k` at `x` of the polynomial piece of the
B-spline `m + r` of degree `p` on the interval containing `x`.  That derivative is a combination of the pieces of B-splines
of degree `p - k`; the error is at most `ε` times the sum of the absolute values of its terms, the coefficients of which are at most
`p! / (p - k)! (2 / δ)^k` where `δ` is the length of the interval. -/
structure NDerivNear (t : Nat → Rat) (b : Rat) (p : Nat) (x : Rat) (m n : Nat) (d : Arr2 Rat) (ε : Rat) : Prop where
  rows : d.rows = p + 1
  cols : d.cols = n + 1
  cell : Spec.InCell t b x (m + p)
  value : ∀ r k : Nat, r ≤ p → k ≤ n → ∃ (P : Rat[X]) (α : Nat → Rat) (Q : Nat → Rat[X]) (y : Rat),
    IsPiece t b p (m + r) (m + p) P ∧ (∀ j, IsPiece t b (p - k) (m + r + j) (m + p) (Q j)) ∧
    derivative^[k] P = ∑ j ∈ range (k + 1), C (α j) * Q j ∧ d.val r k = some y ∧
    |y - (derivative^[k] P).eval x| ≤ ε * ∑ j ∈ range (k + 1), |α j| * Spec.bspline t b (p - k) (m + r + j) x ∧
    ∀ j, j ≤ k → Spec.bspline t b (p - k) (m + r + j) x ≠ 0 →
      |α j| ≤ (p.descFactorial k : Nat) * (2 / (t (m + p + 1) - t (m + p))) ^ k

theorem NDerivNear.mono {t : Nat → Rat} {b : Rat} {p : Nat} {x : Rat} {m n : Nat} {d : Arr2 Rat} {ε ε' : Rat}
    (ht : Monotone t) (h : NDerivNear t b p x m n d ε) (hε : ε ≤ ε') : NDerivNear t b p x m n d ε' where
  rows := h.rows
  cols := h.cols
  cell := h.cell
  value r k hr hk := by
    obtain ⟨P, α, Q, y, h1, h2, h3, h4, h5, h6⟩ := h.value r k hr hk
    refine ⟨P, α, Q, y, h1, h2, h3, h4, h5.trans (mul_le_mul_of_nonneg_right hε ?_), h6⟩
    exact sum_nonneg fun j _ => mul_nonneg (abs_nonneg _) (Spec.bspline_nonneg ht h.cell _ _)

/-! ## Non-uniform B-splines -/

/-- B-splines add up to one, hence some of them to at most one. -/
theorem bspline_some {t : Nat → Rat} (ht : Monotone t) {b x : Rat} {c : Nat} (hc : Spec.InCell t b x c) (q i N : Nat)
    (hq : q ≤ c) : ∑ j ∈ range N, Spec.bspline t b q (i + j) x ≤ 1 := by
  have h := Spec.bspline_sum ht hc q (c - q) (by omega)
  have e1 : ∑ j ∈ range N, Spec.bspline t b q (i + j) x = ∑ l ∈ Ico i (i + N), Spec.bspline t b q l x := by
    rw [sum_Ico_eq_sum_range, Nat.add_sub_cancel_left]
  have e2 : ∑ r ∈ range (q + 1), Spec.bspline t b q (c - q + r) x = ∑ l ∈ Ico (c - q) (c + 1), Spec.bspline t b q l x := by
    rw [sum_Ico_eq_sum_range]
    congr 2
    omega
  rw [e1, ← h, e2, ← sum_filter_of_ne (p := fun l => l ∈ Ico (c - q) (c + 1))]
  · refine sum_le_sum_of_subset_of_nonneg (fun l hl => (mem_filter.1 hl).2) (fun l _ _ => Spec.bspline_nonneg ht hc q l)
  · intro l _ hne
    by_contra hl
    rw [mem_Ico] at hl
    apply hne
    rw [Spec.bspline_eq_piece ht hc, Spec.piece_zero _ _ _ _ (by omega)]; simp

/-- The coefficients that matter. -/
theorem dcoef_bound {w : Nat → Nat → Rat} {p r : Nat} {M : Rat} (hM : 0 ≤ M) (hw : ∀ k j, 0 ≤ w k j)
    (h : ∀ k j, 1 ≤ k → k ≤ p → NDer.Need p r k j → w k j ≤ M) (k j : Nat) (hk : k ≤ p) (hn : NDer.Need p r k j) :
    |Spec.dcoef w k j| ≤ (2 * M) ^ k := by
  induction k generalizing j with
  | zero => rw [Spec.dcoef]; split <;> simp
  | succ k ih =>
    obtain ⟨n1, n2, n3⟩ := hn
    have m0 : 0 ≤ (2 * M) ^ k := pow_nonneg (by linarith) _
    have a1 : |Spec.dcoef w k j| ≤ (2 * M) ^ k := by
      by_cases hj : j ≤ k
      · exact ih j (by omega) ⟨by omega, hj, n3⟩
      · rw [Spec.dcoef_zero w k j (by omega), abs_zero]; exact m0
    have a2 : |if j = 0 then 0 else Spec.dcoef w k (j - 1)| ≤ (2 * M) ^ k := by
      by_cases hj : j = 0
      · rw [if_pos hj, abs_zero]; exact m0
      · rw [if_neg hj]; exact ih (j - 1) (by omega) ⟨by omega, by omega, by omega⟩
    rw [Spec.dcoef, abs_mul, abs_of_nonneg (hw _ _), pow_succ]
    have a3 := (abs_sub (Spec.dcoef w k j) (if j = 0 then 0 else Spec.dcoef w k (j - 1))).trans (add_le_add a1 a2)
    have a4 := mul_le_mul a3 (h (k + 1) j (by omega) hk ⟨n1, n2, n3⟩) (hw _ _) (by linarith)
    linarith

/-- The relative error. -/
theorem up_degree (p : Nat) (hp : p ≤ 2 ^ 20) : up (9 * p + 3) - 1 ≤ (10 * p + 4) / 2 ^ 53 := by
  have := up_le (9 * p + 3) (by omega)
  have hp0 : (0 : Rat) ≤ p := Nat.cast_nonneg p
  push_cast at this
  have e : 17 / 16 * (9 * (p : Rat) + 3) / 2 ^ 53 ≤ (10 * p + 4) / 2 ^ 53 := by
    gcongr
    linarith
  linarith

/-- `eval_basis_and_n_derivs` with rounding on B-splines with the knots `t`. -/
theorem nubs_nderivsR (hfl : RoundsAll fl) {u : NUBS Rat} {p n : Nat} {t : Nat → Rat} (hu : u.Is p n t)
    (g0 : t p < t (p + 1)) (g1 : t (p + n - 1) < t (p + n)) (x : Rat) (hx1 : t p ≤ x) (hx2 : x ≤ t (p + n))
    (N : Nat) (hN : N ≤ p) (hf : ∀ k, k ≤ N → p.descFactorial k < 2 ^ 31) (derivs : Arr2 Rat) (hdr : derivs.rows = p + 1)
    (hdc : derivs.cols = N + 1) :
    ∃ m d, m < n ∧ Rounded.evalBasisAndNDerivs fl u derivs x N = .ok (d, el1 (BitVec.ofNat 64 m)) ∧
      NDerivNear t (t (p + n)) p x m N d (up (9 * p + 3) - 1) := by
  have hcl := hu.cells
  obtain ⟨c, e0, h3, h4, h5⟩ := rounded_cell hfl hu g0 g1 ⟨hx1, hx2⟩
  obtain ⟨ndu, e1, hl, hinv⟩ := Rounded.ndu_ok (fl := fl) hu (x := x) h3 h4
  have hx := h5.le
  have hcc : t c < t (c + 1) := h5.lt
  have hcp : c = c - p + p := by omega
  have hT : ∀ j r, j ≤ p → r ≤ j → tri (NUBS.nL t x c) (NUBS.nR t x c) 1 j r =
      Spec.bspline t (t (p + n)) j (c - j + r) x := by
    intro j r hj hr
    rw [tri_bspline (L := NUBS.nL t x c) (R := NUBS.nR t x c) hu.mono h5 1 p (by omega)
      (fun j r _ _ => rfl) (fun j r _ _ => rfl) j r hj hr, one_mul]
  obtain ⟨d1, e2, k1, k2, k3⟩ := NDer.copy_ok (n := N) (T := triN fl t x c p)
    (by omega) hl.rows hl.cols (fun r hr => hl.val p r (le_refl _) hr) rfl derivs hdr hdc
  have hwpos : ∀ i k j, 0 ≤ Spec.weight t p i k j := fun i k j =>
    div_nonneg zero_le_one (sub_nonneg.2 (hu.mono (by omega)))
  have hdata : ∀ r, r ≤ p → NDerR.Data (fun v q => fl (v * q)) (fun pk i => ndu.ndu.rd i (pk + 1)) p ndu.ndu r
      (fun k j => if k ≤ r + j ∧ r + j ≤ p then triN fl t x c (p - k) (r + j - k) else 0)
      (Spec.weight t p (c - p + r)) := by
    intro r hr
    refine NDerR.data_of (w := Spec.weight t p (c - p + r)) hl r (fun k j hk1 hk2 hn => ?_) (hwpos _)
    obtain ⟨n1, n2, n3⟩ := hn
    have q1 : (p : Int) - k + 1 = ((p - k + 1 : Nat) : Int) := by omega
    have q2 : (r : Int) - k + j = ((r + j - k : Nat) : Int) := by omega
    have hrows := hl.rows
    have hcols := hl.cols
    refine ⟨fl (1 / nD fl t x c (p - k) (r + j - k)), ?_, fun m v y hvy => ?_⟩
    · show ndu.ndu.rd ((r : Int) - k + j) ((p : Int) - k + 1) = _
      rw [q1, q2]
      exact Arr2.rd_ok ⟨by omega, by omega, by omega, by omega⟩
        (hinv (p - k) (r + j - k) (by omega) (by omega))
    · have := (nD_near (j := p - k) (r := r + j - k) hfl hu.mono hx.1 hx.2 hcc (by omega) (by omega)).1
      rw [show c + (r + j - k) + 1 = c - p + r + j + (p - k) + 1 by omega,
        show c - (p - k) + (r + j - k) = c - p + r + j by omega] at this
      exact (hvy.mul this).fl hfl
  obtain ⟨s, e3, l1, l2, l3, l4⟩ := NDerR.splines_ok hfl hdata N hN (Arr2.uninit (p + 1) 2, d1) rfl rfl k1 k2
  obtain ⟨s', e4, m1, m2, m3, m4⟩ := NDerR.nubs_scale_ok (fl := fl) (D := fun i k => (s.2.val i k).getD 0) l1 l2 hN
    (fun i k hi hk => by
      by_cases hk0 : k = 0
      · subst hk0
        have := l4 i
        rw [k3 i hi] at this
        show s.2.val i 0 = some ((s.2.val i 0).getD 0)
        rw [this]; rfl
      · obtain ⟨d, e, -⟩ := l3 i k hi (by omega) hk
        rw [e]; rfl)
  refine ⟨c - p, s'.1, by omega, ?_, m1, m2, hcp ▸ h5, fun r k hr hk => ?_⟩
  · have g1 : decide (N ≤ p) = true := decide_eq_true hN
    have g2 : decide (derivs.rows = 1 + p) = true := decide_eq_true (by omega)
    have g3 : decide (derivs.cols = 1 + N) = true := decide_eq_true (by omega)
    have e1' : ∀ {β} (f : NUBS.NduState Rat → Res β),
        ((Arr2.uninit (p + 1) (p + 1)).wr 0 0 1 >>= fun ndu =>
        forLoop (Rounded.nduOuter fl u (BitVec.ofNat 64 c) x) 0 p ⟨ndu, Arr.uninit p, Arr.uninit p⟩ >>= f) = f ndu := by
      intro β f
      exact bind_of e1 f
    simp only [Rounded.evalBasisAndNDerivs, hu.degree, hu.rmin, hu.rmax, Res.ok_bind,
      inside_ok hfl hx1 hx2, g1, g2, g3, Res.guardAbort_true, e0, NUBS.uid1_el,
      rounded_checkCell hfl hu h3 h4 hx]
    rw [e1', e2, Res.ok_bind, NDerR.nubs_spline, e3, Res.ok_bind, e4, Res.ok_bind, hu.firstBspline h3 h4]
    rfl
  · have hB0 : ∀ q i, 0 ≤ Spec.bspline t (t (p + n)) q i x := Spec.bspline_nonneg hu.mono h5
    have hpiece : ∀ q i, (Spec.piece t c q i).eval x = Spec.bspline t (t (p + n)) q i x := fun q i =>
      (Spec.bspline_eq_piece hu.mono h5 q i).symm
    have hF : NDer.factor p k = p.descFactorial k := NDer.factor_eq (hf k hk)
    obtain ⟨α, hα⟩ : ∃ α : Nat → Rat, α = fun j => ((p.descFactorial k : Nat) : Rat) *
      Spec.dcoef (Spec.weight t p (c - p + r)) k j := ⟨_, rfl⟩
    have hder : derivative^[k] (Spec.piece t c p (c - p + r)) =
        ∑ j ∈ range (k + 1), C (α j) * Spec.piece t c (p - k) (c - p + r + j) := by
      rw [Spec.derivative_iterate hu.mono _ _ _ _ (by omega), mul_sum, hα]
      refine sum_congr rfl fun j _ => ?_
      rw [← mul_assoc, ← C_mul]
    have heval : (derivative^[k] (Spec.piece t c p (c - p + r))).eval x =
        (∑ j ∈ range (k + 1), Spec.dcoef (Spec.weight t p (c - p + r)) k j *
          Spec.bspline t (t (p + n)) (p - k) (c - p + r + j) x) * ((p.descFactorial k : Nat) : Rat) := by
      rw [sum_deriv hu.mono _ _ _ _ _ (by omega), mul_comm]
      simp only [hpiece]
    have habs : ∑ j ∈ range (k + 1), |α j| * Spec.bspline t (t (p + n)) (p - k) (c - p + r + j) x =
        (∑ j ∈ range (k + 1), |Spec.dcoef (Spec.weight t p (c - p + r)) k j *
          Spec.bspline t (t (p + n)) (p - k) (c - p + r + j) x|) * |((p.descFactorial k : Nat) : Rat)| := by
      rw [sum_mul, hα]
      refine sum_congr rfl fun j _ => ?_
      rw [abs_mul, abs_mul, abs_of_nonneg (hB0 _ _)]; ring
    have hnear : ∀ j, j ≤ k → Near (9 * (p - k)) (if k ≤ r + j ∧ r + j ≤ p then triN fl t x c (p - k) (r + j - k) else 0)
        (Spec.bspline t (t (p + n)) (p - k) (c - p + r + j) x) := by
      intro j hj
      split
      · rename_i h
        have := (triN_near hfl hu.mono hx.1 hx.2 hcc (p - k) (r + j - k) (by omega) (by omega)).1
        rwa [hT _ _ (by omega) (by omega), show c - (p - k) + (r + j - k) = c - p + r + j by omega] at this
      · rename_i h
        rw [← hpiece, Spec.piece_zero _ _ _ _ (by omega), eval_zero]
        exact (Near.refl 0).mono (by omega)
    rw [← hcp]
    obtain ⟨y, hy, herr⟩ : ∃ y, s'.1.val r k = some y ∧ |y - (derivative^[k] (Spec.piece t c p (c - p + r))).eval x| ≤
        (up (9 * p + 3) - 1) * ∑ j ∈ range (k + 1), |α j| * Spec.bspline t (t (p + n)) (p - k) (c - p + r + j) x := by
      rw [heval, habs]
      by_cases hk0 : k = 0
      · subst hk0
        have v0 := m3 r hr
        have := l4 r
        rw [k3 r hr] at this
        rw [show ((s.2.val (r : Int) ((0 : Nat) : Int)).getD 0) = triN fl t x c p r by
          show (s.2.val r 0).getD 0 = _
          rw [this]; rfl] at v0
        refine ⟨_, v0, ?_⟩
        have hn := hnear 0 (le_refl _)
        rw [if_pos ⟨by omega, by omega⟩] at hn
        simp only [Nat.sub_zero, Nat.add_zero] at hn
        have := hn.mono (show 9 * p ≤ 9 * p + 3 by omega)
        simpa [Spec.dcoef, Near] using this
      · obtain ⟨d, ed, hd⟩ := l3 r k hr (by omega) hk
        have v := m4 r k hr (by omega) hk
        rw [ed] at v
        refine ⟨_, v, ?_⟩
        have h1 := hd.near hnear
        have h2 := mul_step (abs_sum_le_sum_abs _ _) h1 (Near.refl ((p.descFactorial k : Nat) : Rat))
        have h3 := fl_step hfl h2.1 h2.2
        rw [hF, Int.cast_natCast, Option.getD_some]
        refine h3.trans (mul_le_mul_of_nonneg_right ?_ (mul_nonneg (sum_nonneg fun _ _ => abs_nonneg _) (abs_nonneg _)))
        have := up_mono (show 8 * k + 2 + 9 * (p - k) + 0 + 1 ≤ 9 * p + 3 by omega)
        linarith
    refine ⟨_, α, fun j => Spec.piece t c (p - k) (c - p + r + j), y, isPiece_piece hu.mono _ p _ _,
      fun j => isPiece_piece hu.mono _ _ _ _, hder, hy, ?_, ?_⟩
    · exact herr
    · have hδ : 0 < t (c + 1) - t c := sub_pos.2 hcc
      have hM : (0 : Rat) ≤ 1 / (t (c + 1) - t c) := (one_div_pos.2 hδ).le
      intro j hj hne
      by_cases hn : NDer.Need p r k j
      · rw [hα, abs_mul, Nat.abs_cast]
        refine mul_le_mul_of_nonneg_left ?_ (Nat.cast_nonneg _)
        have := dcoef_bound (w := Spec.weight t p (c - p + r)) hM (hwpos _) (fun k' j' h1 h2 hn' => by
          obtain ⟨n1, n2, n3⟩ := hn'
          rw [Spec.weight]
          refine one_div_le_one_div_of_le hδ ?_
          have a1 := hu.mono (show c + 1 ≤ c - p + r + j' + (p - k') + 1 by omega)
          have a2 := hu.mono (show c - p + r + j' ≤ c by omega)
          linarith) k j (by omega) hn
        rwa [mul_one_div] at this
      · exfalso
        apply hne
        rw [← hpiece, Spec.piece_zero _ _ _ _ (by
          by_contra hcon
          exact hn ⟨by omega, by omega, by omega⟩), eval_zero]

/-- The factors are of type `int`. -/
theorem factors_small {p N : Nat} (hN : N ≤ p) (hf : p ≤ 12 ∨ ∀ k, k ≤ N → p.descFactorial k < 2 ^ 31) :
    ∀ k, k ≤ N → p.descFactorial k < 2 ^ 31 := by
  intro k hk
  rcases hf with hf | hf
  · have a1 : p.descFactorial k ≤ p.factorial := by
      rw [← Nat.factorial_mul_descFactorial (show k ≤ p by omega)]
      exact Nat.le_mul_of_pos_left _ (Nat.factorial_pos _)
    have a2 : p.factorial ≤ Nat.factorial 12 := Nat.factorial_le hf
    have a3 : Nat.factorial 12 < 2 ^ 31 := by decide
    omega
  · exact hf k hk

/-- Non-uniform B-splines, whatever the rounding and the spacing of the break points: the derivatives of all orders, with an
error of at most `(10 p + 4) 2⁻⁵³` times the terms they are the sum of.
Missing: factors `p! / (p - k)!` that are not of type `int` (`C33_factor_overflow`); all are for degrees of at most 12. -/
theorem C67_non_uniform_partial (hfl : RoundsAll fl) (p : Nat) (hp : 0 < p) (hp' : p ≤ 2 ^ 20) (breaks : List Rat)
    (hb : GoodBreaks breaks) (hs : breaks.length + 2 * p < 2 ^ 63) :
    ∃ u t, NUBS.mk' p false breaks = .ok u ∧ Monotone t ∧
      (∀ i (h : i < breaks.length), t (p + i) = breaks[i]) ∧
      (∀ k, k < breaks.length + 2 * p → u.knots.coordinate (el1 (BitVec.ofNat 64 k)) = .ok (t k)) ∧
      ∀ x, t p ≤ x → x ≤ t (p + (breaks.length - 1)) → ∀ N, N ≤ p →
        (p ≤ 12 ∨ ∀ k, k ≤ N → p.descFactorial k < 2 ^ 31) →
        ∀ derivs : Arr2 Rat, derivs.rows = p + 1 → derivs.cols = N + 1 →
        ∃ m d, m < breaks.length - 1 ∧
          Rounded.evalBasisAndNDerivs fl u derivs x N = .ok (d, el1 (BitVec.ofNat 64 m)) ∧
          NDerivNear t (t (p + (breaks.length - 1))) p x m N d ((10 * p + 4) / 2 ^ 53) := by
  have h2 := hb.two
  obtain ⟨u, t, e, -, hu, hk⟩ := NUBS.mk'_is hp false hb.two hs hb.sorted hb.lt
  obtain ⟨g0, g1⟩ := goodEnds hb hk
  refine ⟨u, t, e, hu.mono, hk.inner, fun k hk => hu.coord k (by omega), fun x hx1 hx2 N hN hf derivs hdr hdc => ?_⟩
  obtain ⟨m, d, h1, h2, h3⟩ := nubs_nderivsR hfl hu g0 g1 x hx1 hx2 N hN (factors_small hN hf) derivs hdr hdc
  exact ⟨m, d, h1, h2, h3.mono hu.mono (up_degree p hp')⟩

/-- The same for periodic B-splines, the knots of which are computed with rounding too. -/
theorem C67_periodic_non_uniform_partial (hfl : RoundsAll fl) (p : Nat) (hp : 0 < p) (hp' : p ≤ 2 ^ 20) (breaks : List Rat)
    (hb : WideEnds fl breaks) (hs : breaks.length + 2 * p < 2 ^ 63) :
    ∃ u t, Rounded.mkNubs fl p true breaks = .ok u ∧ Monotone t ∧
      (∀ i (h : i < breaks.length), t (p + i) = breaks[i]) ∧
      (∀ k, k < breaks.length + 2 * p → u.knots.coordinate (el1 (BitVec.ofNat 64 k)) = .ok (t k)) ∧
      ∀ x, t p ≤ x → x ≤ t (p + (breaks.length - 1)) → ∀ N, N ≤ p →
        (p ≤ 12 ∨ ∀ k, k ≤ N → p.descFactorial k < 2 ^ 31) →
        ∀ derivs : Arr2 Rat, derivs.rows = p + 1 → derivs.cols = N + 1 →
        ∃ m d, m < breaks.length - 1 ∧
          Rounded.evalBasisAndNDerivs fl u derivs x N = .ok (d, el1 (BitVec.ofNat 64 m)) ∧
          NDerivNear t (t (p + (breaks.length - 1))) p x m N d ((10 * p + 4) / 2 ^ 53) := by
  have h2 := hb.two
  obtain ⟨u, t, e, -, hu, hk, g0, g1, -⟩ := mkNubs_is hfl hp hs hb
  refine ⟨u, t, e, hu.mono, hk, fun k hk => hu.coord k (by omega), fun x hx1 hx2 N hN hf derivs hdr hdc => ?_⟩
  obtain ⟨m, d, h1, h2, h3⟩ := nubs_nderivsR hfl hu g0 g1 x hx1 hx2 N hN (factors_small hN hf) derivs hdr hdc
  exact ⟨m, d, h1, h2, h3.mono hu.mono (up_degree p hp')⟩

/-! ## Uniform B-splines -/

/-- The values of the triangle are those of polynomial pieces on the whole interval, both ends included. -/
theorem int_piece {p c : Nat} {o : Rat} (h0 : 0 ≤ o) (h1 : o ≤ 1) (j r : Nat) (hj : j ≤ p) (hr : r ≤ j) :
    tri (uL o) (uR o) 1 j r = (Spec.piece (intKnot p) (p + c) j (p + c - j + r)).eval (c + o) := by
  obtain ⟨b, hb⟩ : ∃ b, Spec.InCell (intKnot p) b ((c : Rat) + o) (p + c) := by
    rcases lt_or_eq_of_le h1 with h | h
    · refine ⟨c + o + 1, ?_⟩
      rw [Spec.InCell, if_pos (by linarith), intKnot, intKnot]
      push_cast
      constructor <;> linarith
    · refine ⟨c + o, ?_⟩
      rw [Spec.InCell, if_neg (by linarith), intKnot, intKnot]
      push_cast
      constructor <;> linarith
  rw [tri_bspline (L := uL o) (R := uR o) (intKnot_mono p) hb 1 p (by omega) ?_ ?_ j r hj hr, one_mul,
    Spec.bspline_eq_piece (intKnot_mono p) hb]
  · intro j r hj hr
    rw [uL, intKnot, intKnot, Nat.cast_add (p + c - j) r, Nat.cast_sub (by omega)]
    push_cast
    rw [show (p : Rat) + c + r + 1 - p - (p + c - j + r - p) = j + 1 by ring]
    congr 1; ring
  · intro j r hj hr
    rw [uR, intKnot, intKnot, Nat.cast_add (p + c - j) r, Nat.cast_sub (by omega)]
    push_cast
    rw [show (p : Rat) + c + r + 1 - p - (p + c - j + r - p) = j + 1 by ring]
    congr 1; ring

theorem int_weight (p i k j : Nat) : Spec.weight (intKnot p) p i k j = 1 / (((p - k : Nat) : Rat) + 1) := by
  rw [Spec.weight, intKnot, intKnot]
  push_cast
  congr 1
  ring

/-- The coefficients, multiplied by the factor. -/
theorem int_dcoef {p i : Nat} (k j : Nat) (hk : k ≤ p) :
    ((p.descFactorial k : Nat) : Rat) * |Spec.dcoef (Spec.weight (intKnot p) p i) k j| ≤ 2 ^ k := by
  induction k generalizing j with
  | zero => rw [Spec.dcoef]; split <;> simp
  | succ k ih =>
    have hw : (0 : Rat) < ((p - k : Nat) : Rat) := by exact_mod_cast (show 0 < p - k by omega)
    have e : Spec.weight (intKnot p) p i (k + 1) j = 1 / ((p - k : Nat) : Rat) := by
      rw [int_weight, ← Nat.cast_succ, show Nat.succ (p - (k + 1)) = p - k by omega]
    rw [Spec.dcoef, e, Nat.descFactorial_succ, abs_mul, abs_of_pos (one_div_pos.2 hw)]
    push_cast
    have a1 := ih j (by omega)
    have a2 : ((p.descFactorial k : Nat) : Rat) * |if j = 0 then 0 else Spec.dcoef (Spec.weight (intKnot p) p i) k (j - 1)| ≤
        2 ^ k := by
      split
      · simp
      · exact ih _ (by omega)
    have a3 := mul_le_mul_of_nonneg_left (abs_sub (Spec.dcoef (Spec.weight (intKnot p) p i) k j)
      (if j = 0 then 0 else Spec.dcoef (Spec.weight (intKnot p) p i) k (j - 1)))
      (Nat.cast_nonneg (α := Rat) (p.descFactorial k))
    rw [mul_add] at a3
    have e2 : ∀ X : Rat, ((p - k : Nat) : Rat) * ((p.descFactorial k : Nat) : Rat) * (X * (1 / ((p - k : Nat) : Rat))) =
        ((p.descFactorial k : Nat) : Rat) * X := by
      intro X; field_simp
    rw [e2, pow_succ]
    linarith

/-- A part of a line of the triangle. -/
theorem sum_part {p r k : Nat} (hk : k ≤ p) {g : Nat → Rat} (hg : ∀ s, s ≤ p - k → 0 ≤ g s) :
    ∑ j ∈ range (k + 1), (if k ≤ r + j ∧ r + j ≤ p then g (r + j - k) else 0) ≤ ∑ s ∈ range (p - k + 1), g s := by
  rw [← sum_filter, ← sum_image (f := g) (g := fun j => r + j - k) (s := (range (k + 1)).filter fun j => k ≤ r + j ∧ r + j ≤ p)]
  · refine sum_le_sum_of_subset_of_nonneg (fun s hs => ?_) (fun s hs _ => hg s (by rw [mem_range] at hs; omega))
    obtain ⟨j, hj, rfl⟩ := mem_image.1 hs
    have := (mem_filter.1 hj).2
    rw [mem_range]; omega
  · intro i hi j hj h
    have h1 := (mem_filter.1 hi).2
    have h2 := (mem_filter.1 hj).2
    dsimp only at h
    omega

/-- The same with coefficients. -/
theorem sum_part_coef {p r k : Nat} (hk : k ≤ p) {g a : Nat → Rat} {F B : Rat} (hF : 0 ≤ F) (hB : 0 ≤ B)
    (ha : ∀ j, F * |a j| ≤ B) :
    F * ∑ j ∈ range (k + 1), |a j * (if k ≤ r + j ∧ r + j ≤ p then g (r + j - k) else 0)| ≤
      B * ∑ s ∈ range (p - k + 1), |g s| := by
  have b1 : F * ∑ j ∈ range (k + 1), |a j * (if k ≤ r + j ∧ r + j ≤ p then g (r + j - k) else 0)| ≤
      B * ∑ j ∈ range (k + 1), (if k ≤ r + j ∧ r + j ≤ p then |g (r + j - k)| else 0) := by
    rw [mul_sum, mul_sum]
    refine sum_le_sum fun j _ => ?_
    rw [abs_mul, ← mul_assoc]
    refine (mul_le_mul_of_nonneg_right (ha j) (abs_nonneg _)).trans (le_of_eq ?_)
    congr 1
    split <;> simp
  exact b1.trans (mul_le_mul_of_nonneg_left (sum_part hk (g := fun s => |g s|) (fun s _ => abs_nonneg _)) hB)

/-- Specification: the entry `(r, k)` of the array, multiplied by `h^k`, is the derivative of order `k` at `z` of the
polynomial piece of the B-spline `c + r` of degree `p` on the integers, on the interval `[c, c + 1]`; it is at most `2^k`. -/
structure NDerivClose (p n : Nat) (z : Rat) (c N : Nat) (d : Arr2 Rat) (h : Rat) : Prop where
  rows : d.rows = p + 1
  cols : d.cols = N + 1
  cell : c ≤ n ∧ (c : Rat) ≤ z ∧ z ≤ c + 1
  value : ∀ r k : Nat, r ≤ p → k ≤ N → ∃ (P : Rat[X]) (y : Rat), IsPiece (intKnot p) (n + 1) p (c + r) (p + c) P ∧
    d.val r k = some y ∧ |(derivative^[k] P).eval z| ≤ 2 ^ k ∧
    |y * h ^ k - (derivative^[k] P).eval z| ≤ 2 ^ k * (((p - k : Nat) : Rat) * (((p - k : Nat) : Rat) + 13) + 14 * k + 4) / 2 ^ 53

/-- `eval_basis_and_n_derivs` at a known cell and offset. -/
theorem ubs_nderivsR (hfl : RoundsAll fl) {u : Knots} {n p : Nat} (hp' : p < 2 ^ 20) (hk : u.p = p) (hs : 0 < u.step) {x : Rat}
    (hx : Rounded.checkInside fl x (u.rmin fl) (u.rmax fl) = .ok ()) {c : Nat} {o : Rat}
    (hg : getIcellAndOffset fl u x = .ok ((c : Int), o)) (hc : c ≤ n) (h0 : 0 ≤ o) (h1 : o ≤ 1)
    (N : Nat) (hN : N ≤ p) {derivs : Arr2 Rat} (hdr : derivs.rows = p + 1) (hdc : derivs.cols = N + 1) :
    ∃ d, u.evalBasisAndNDerivs fl derivs x N = .ok (d, (c : Int)) ∧ NDerivClose p n (c + o) c N d u.step := by
  obtain ⟨ndu, e1, hl⟩ := Knots.ndu_ok (fl := fl) o p
  obtain ⟨T, hT⟩ : ∃ T, T = triR fl (uA fl o) (uB fl o) uD 1 := ⟨_, rfl⟩
  rw [← hT] at hl
  obtain ⟨d1, e2, k1, k2, k3⟩ := NDer.copy_ok (n := N) (T := T p)
    (by omega) hl.rows hl.cols (fun r hr => hl.val p r (le_refl _) hr) rfl derivs hdr hdc
  have hwpos : ∀ i k j, 0 ≤ Spec.weight (intKnot p) p i k j := fun i k j => by
    rw [int_weight]; positivity
  have hdata : ∀ r, r ≤ p → NDerR.Data (fun v q => fl (v / q)) (fun pk _ => .ok ((pk + 1 : Int) : Rat)) p ndu r
      (fun k j => if k ≤ r + j ∧ r + j ≤ p then T (p - k) (r + j - k) else 0)
      (Spec.weight (intKnot p) p (c + r)) := by
    intro r hr
    refine NDerR.data_of (w := Spec.weight (intKnot p) p (c + r)) hl r (fun k j hk1 hk2 hn => ?_) (hwpos _)
    refine ⟨(((p : Int) - k + 1 : Int) : Rat), rfl, fun m v y hvy => ?_⟩
    have e : (((p : Int) - k + 1 : Int) : Rat) = ((p - k : Nat) : Rat) + 1 := by
      rw [Nat.cast_sub hk2]; push_cast; ring
    rw [int_weight, e, ← div_eq_mul_one_div]
    have := (hvy.mul (Near.refl (1 / (((p - k : Nat) : Rat) + 1)))).fl hfl
    rw [← div_eq_mul_one_div, ← div_eq_mul_one_div] at this
    exact this.mono (by omega)
  obtain ⟨s, e3, l1, l2, l3, l4⟩ := NDerR.splines_ok hfl hdata N hN (Arr2.uninit (p + 1) 2, d1) rfl rfl k1 k2
  have hq : Near 1 (u.invStep fl) (1 / u.step) := (Near.refl _).fl hfl
  obtain ⟨s', e4, m1, m2, m3, m4⟩ := NDerR.ubs_scale_ok (fl := fl) hfl hq (D := fun i k => (s.2.val i k).getD 0) l1 l2 hN
    (fun i k hi hk => by
      by_cases hk0 : k = 0
      · subst hk0
        have := l4 i
        rw [k3 i hi] at this
        show s.2.val i 0 = some ((s.2.val i 0).getD 0)
        rw [this]; rfl
      · obtain ⟨d, e, -⟩ := l3 i k hi (by omega) hk
        rw [e]; rfl)
  refine ⟨s'.1, ?_, m1, m2, ⟨hc, by linarith, by linarith⟩, fun r k hr hkN => ?_⟩
  · have g1 : decide (N ≤ p) = true := decide_eq_true hN
    have g2 : decide (derivs.rows = 1 + p) = true := decide_eq_true (by omega)
    have g3 : decide (derivs.cols = 1 + N) = true := decide_eq_true (by omega)
    have e1' : ∀ {β} (f : Arr2 Rat → Res β),
        ((Arr2.uninit (p + 1) (p + 1)).wr 0 0 1 >>= fun ndu =>
        forLoop (Knots.nduOuter fl o) 1 p ndu >>= f) = f ndu := by
      intro β f
      exact bind_of e1 f
    simp only [Knots.evalBasisAndNDerivs, hk, hx, Res.ok_bind, g1, g2, g3, Res.guardAbort_true, hg]
    rw [e1', hl.cols, e2, Res.ok_bind, NDerR.ubs_spline, e3, Res.ok_bind, e4, Res.ok_bind]
    rfl
  · obtain ⟨E, hE⟩ : ∃ E : Nat → Rat, E = fun j => if k ≤ r + j ∧ r + j ≤ p then
        tri (uL o) (uR o) 1 (p - k) (r + j - k) else 0 := ⟨_, rfl⟩
    obtain ⟨Q, hQ⟩ : ∃ Q : Nat → Rat, Q = fun j => if k ≤ r + j ∧ r + j ≤ p then T (p - k) (r + j - k) else 0 := ⟨_, rfl⟩
    obtain ⟨a, ha⟩ : ∃ a : Nat → Rat, a = Spec.dcoef (Spec.weight (intKnot p) p (c + r)) k := ⟨_, rfl⟩
    obtain ⟨F, hF⟩ : ∃ F : Rat, F = ((p.descFactorial k : Nat) : Rat) := ⟨_, rfl⟩
    obtain ⟨t1, t2, t3⟩ := ubs_lines hfl h0 h1 (p := p - k) (by omega)
    rw [← hT] at t1 t2 t3
    have hF0 : 0 ≤ F := hF ▸ Nat.cast_nonneg _
    have hab : ∀ j, F * |a j| ≤ 2 ^ k := fun j => by rw [ha, hF]; exact int_dcoef k j (by omega)
    have hB0 : (0 : Rat) ≤ 2 ^ k := by positivity
    have hh : u.step ^ k ≠ 0 := pow_ne_zero _ hs.ne'
    have hder : (derivative^[k] (Spec.piece (intKnot p) (p + c) p (c + r))).eval ((c : Rat) + o) =
        F * ∑ j ∈ range (k + 1), a j * E j := by
      rw [sum_deriv (intKnot_mono p) _ _ _ _ _ (by omega), ← ha, ← hF]
      congr 1
      refine sum_congr rfl fun j hj => ?_
      rw [mem_range] at hj
      rw [hE]; dsimp only
      split
      · rw [int_piece (p := p) (c := c) h0 h1 _ _ (by omega) (by omega),
          show p + c - (p - k) + (r + j - k) = c + r + j by omega]
      · rw [Spec.piece_zero _ _ _ _ (by omega), eval_zero]
    have hp0 : (p : Rat) ≤ 1048576 := by exact_mod_cast hp'.le
    have hQE : F * |∑ j ∈ range (k + 1), a j * Q j - ∑ j ∈ range (k + 1), a j * E j| ≤
        2 ^ k * (((p - k : Nat) : Rat) * (((p - k : Nat) : Rat) + 13) / 2 ^ 53) := by
      have b0 : ∑ j ∈ range (k + 1), a j * Q j - ∑ j ∈ range (k + 1), a j * E j = ∑ j ∈ range (k + 1), a j *
          (if k ≤ r + j ∧ r + j ≤ p then T (p - k) (r + j - k) - tri (uL o) (uR o) 1 (p - k) (r + j - k) else 0) := by
        rw [← sum_sub_distrib]
        refine sum_congr rfl fun j _ => ?_
        rw [hQ, hE]; dsimp only
        split
        · rw [mul_sub]
        · rw [sub_self, mul_zero]
      rw [b0]
      refine (mul_le_mul_of_nonneg_left (abs_sum_le_sum_abs _ _) hF0).trans
        ((sum_part_coef (g := fun s => T (p - k) s - tri (uL o) (uR o) 1 (p - k) s) (by omega) hF0 hB0 hab).trans ?_)
      exact mul_le_mul_of_nonneg_left t3 hB0
    have hA : F * ∑ j ∈ range (k + 1), |a j * Q j| ≤ 2 ^ k * (9 / 8) := by
      have b3 := sum_part_coef (r := r) (g := T (p - k)) (show k ≤ p by omega) hF0 hB0 hab
      rw [sum_congr rfl (fun s hs => abs_of_nonneg (t1 s (by rw [mem_range] at hs; omega)))] at b3
      rw [hQ]
      have b5 : ∑ s ∈ range (p - k + 1), T (p - k) s ≤ 9 / 8 := by
        have b6 := (abs_le.1 t2).2
        have b7 : ((p - k : Nat) : Rat) ≤ p := by exact_mod_cast Nat.sub_le p k
        have b8 : 6 * ((p - k : Nat) : Rat) / 2 ^ 53 ≤ 1 / 8 := by
          rw [div_le_iff₀ (by norm_num)]
          linarith
        linarith
      exact b3.trans (mul_le_mul_of_nonneg_left b5 hB0)
    obtain ⟨y, hy, herr⟩ : ∃ y, s'.1.val r k = some y ∧ |y * u.step ^ k - F * ∑ j ∈ range (k + 1), a j * Q j| ≤
        2 ^ k * (14 * k + 4) / 2 ^ 53 := by
      by_cases hk0 : k = 0
      · subst hk0
        have v0 := m3 r hr
        have := l4 r
        rw [k3 r hr] at this
        rw [show ((s.2.val (r : Int) ((0 : Nat) : Int)).getD 0) = T p r by
          show (s.2.val r 0).getD 0 = _
          rw [this]; rfl] at v0
        refine ⟨_, v0, ?_⟩
        have e5 : ∑ j ∈ range (0 + 1), a j * Q j = T p r := by
          rw [hQ, ha]; simp [Spec.dcoef, hr]
        rw [e5, hF, Nat.descFactorial_zero, Nat.cast_one, one_mul, pow_zero, mul_one, sub_self, abs_zero]
        positivity
      · obtain ⟨d, ed, hd⟩ := l3 r k hr (by omega) hkN
        obtain ⟨G, hG, v⟩ := m4 r k hr (by omega) hkN
        rw [ed] at v
        refine ⟨_, v, ?_⟩
        rw [NDerR.Sums, ← ha] at hd
        rw [← hF] at hG
        have h2 := mul_step (abs_sum_le_sum_abs _ _) hd hG
        have h3 := fl_step hfl h2.1 h2.2
        rw [Option.getD_some]
        have e5 : fl (d * G) * u.step ^ k - F * ∑ j ∈ range (k + 1), a j * Q j =
            (fl (d * G) - (∑ j ∈ range (k + 1), a j * Q j) * (F * (1 / u.step) ^ k)) * u.step ^ k := by
          rw [one_div, inv_pow]; field_simp
        have hpos : 0 < u.step ^ k := pow_pos hs k
        have h4 := mul_le_mul_of_nonneg_right h3 hpos.le
        have e6 : |F * (1 / u.step) ^ k| * u.step ^ k = F := by
          rw [abs_of_nonneg (mul_nonneg hF0 (by positivity)), one_div, inv_pow]; field_simp
        have hQj : ∀ j, (if k ≤ r + j ∧ r + j ≤ p then T (p - k) (r + j - k) else 0) = Q j := fun j => by rw [hQ]
        simp only [hQj] at h4
        rw [e5, abs_mul, abs_of_pos hpos]
        have hup := up_le (8 * k + 2 + 3 * k + 1) (by omega)
        push_cast at hup
        have u1 : up (8 * k + 2 + 3 * k + 1) - 1 ≤ 17 / 16 * (11 * (k : Rat) + 3) / 2 ^ 53 := by
          refine (sub_le_iff_le_add'.2 hup).trans (le_of_eq ?_)
          ring
        have u0 : 0 ≤ up (8 * k + 2 + 3 * k + 1) - 1 := sub_nonneg.2 (one_le_up _)
        refine h4.trans ?_
        rw [mul_assoc, mul_assoc, e6, mul_comm (∑ j ∈ range (k + 1), |a j * Q j|) F]
        refine (mul_le_mul u1 hA (mul_nonneg hF0 (sum_nonneg fun _ _ => abs_nonneg _)) (u0.trans u1)).trans ?_
        have k0 : (0 : Rat) ≤ k := Nat.cast_nonneg k
        rw [div_mul_eq_mul_div]
        refine div_le_div_of_nonneg_right ?_ (by norm_num)
        have p2 : (0 : Rat) < 2 ^ k := by positivity
        have : 17 / 16 * (11 * (k : Rat) + 3) * (9 / 8) ≤ 14 * k + 4 := by linarith
        have := mul_le_mul_of_nonneg_left this p2.le
        linarith
    have tl := (tri_lines (L := uL o) (R := uR o) (L' := uL o) (R' := uR o) (p := p - k) (η := fun _ => 0)
      (fun j r _ hr => (uLR h0 h1 hr).1) (fun j r _ hr => (uLR h0 h1 hr).2.1) (fun j r _ hr => (uLR h0 h1 hr).2.2)
      (fun j r _ hr => (uLR h0 h1 hr).1) (fun j r _ hr => (uLR h0 h1 hr).2.1) (fun j r _ hr => (uLR h0 h1 hr).2.2)
      (fun j r _ hr => by simp) (p - k) (le_refl _))
    have hsize : |F * ∑ j ∈ range (k + 1), a j * E j| ≤ 2 ^ k := by
      rw [abs_mul, abs_of_nonneg hF0]
      refine (mul_le_mul_of_nonneg_left (abs_sum_le_sum_abs _ _) hF0).trans ?_
      have b3 := sum_part_coef (r := r) (g := tri (uL o) (uR o) 1 (p - k)) (show k ≤ p by omega) hF0 hB0 hab
      rw [sum_congr rfl (fun s hs => abs_of_nonneg (tl.1 s (by rw [mem_range] at hs; omega))), tl.2.1, mul_one] at b3
      rw [hE]
      exact b3
    refine ⟨_, y, isPiece_piece (intKnot_mono p) _ p (c + r) (p + c), hy, by rw [hder]; exact hsize, ?_⟩
    rw [hder]
    have f1 := abs_sub_le (y * u.step ^ k) (F * ∑ j ∈ range (k + 1), a j * Q j) (F * ∑ j ∈ range (k + 1), a j * E j)
    rw [← mul_sub, abs_mul F, abs_of_nonneg hF0] at f1
    have : 2 ^ k * (((p - k : Nat) : Rat) * (((p - k : Nat) : Rat) + 13) + 14 * k + 4) / 2 ^ 53 =
      2 ^ k * (14 * (k : Rat) + 4) / 2 ^ 53 + 2 ^ k * (((p - k : Nat) : Rat) * (((p - k : Nat) : Rat) + 13) / 2 ^ 53) := by ring
    rw [this]
    linarith

/-- Uniform B-splines on `n` cells, whatever the rounding: at a coordinate between the first and the last break points,
`eval_basis_and_n_derivs` returns the derivatives of all orders, at a point `z` that is the distance from the first break
point in units of the step up to a few units of the last place, of the B-splines on the integers, divided by the powers of
the step.
Missing: the first B-spline has a number less than `n`, not just at most `n` (`C60_past_the_end`), if the coordinate is
close to the last break point; the derivatives of order `p` are discontinuous, so the interval of `z` matters. -/
theorem C67_uniform_partial (hfl : RoundsAll fl) {a b : Rat} (hab : a < b) {n p : Nat} (hn : 0 < n) (hn' : n + 1 < 2 ^ 31)
    (hp' : p < 2 ^ 20) (hres : |a| * n ≤ 2 ^ 46 * (b - a)) {k : Knots} (hk : k = mkKnots fl a b n p) {x : Rat}
    (h1 : k.rmin fl ≤ x) (h2 : x ≤ k.rmax fl) (N : Nat) (hN : N ≤ p) (derivs : Arr2 Rat) (hdr : derivs.rows = p + 1)
    (hdc : derivs.cols = N + 1) :
    ∃ (c : Nat) (z : Rat) (d : Arr2 Rat), k.evalBasisAndNDerivs fl derivs x N = .ok (d, (c : Int)) ∧
      NDerivClose p n z c N d k.step ∧
      (x - k.rmin fl ≤ (1 - 1 / 2 ^ 50) * (n * k.step) → c < n) ∧
      (x < k.rmax fl → |z - (x - k.rmin fl) / k.step| ≤ 1 / 2 ^ 50 * (n + 1)) ∧
      (x = k.rmax fl → c + 1 = n ∧ z = n) := by
  obtain ⟨hs, hlen⟩ := knots_bounds hfl hab hn (by omega) hp'.le hres
  obtain ⟨c, o, e, k1, k2, k3, k4, k5, k6, k7⟩ := C58_uniform_partial hfl hab hn hn' hp'.le hres hk h1 h2
  rw [← hk] at hs hlen
  obtain ⟨c, rfl⟩ := Int.eq_ofNat_of_zero_le k1
  have hkp : k.p = p := by rw [hk]; rfl
  obtain ⟨d, e1, e2⟩ := ubs_nderivsR (n := n) hfl hp' hkp hs (inside_ok hfl h1 h2) e (by omega) k3 k4 N hN hdr hdc
  refine ⟨c, c + o, d, e1, e2, fun h => by have := k6 h; omega, fun h => by
    have := k5 h
    rwa [Int.cast_natCast] at this, fun hx => ?_⟩
  have hc : c + 1 = n := by have := k7 hx; omega
  have hlt : ¬ x ≤ k.rmin fl := by
    rw [hx, not_le]
    have := (abs_le.1 hlen).1
    have := mul_le_mul_of_nonneg_right (show (1 : Rat) ≤ n by exact_mod_cast hn) hs.le
    linarith
  rw [getIcellAndOffset, inside_ok hfl h1 h2, Res.ok_bind, if_neg hlt, if_pos hx.ge] at e
  have ho : o = 1 := (Prod.ext_iff.1 (Res.ok.inj e)).2.symm
  refine ⟨hc, ?_⟩
  rw [ho, ← hc]; push_cast; rfl

/-! ## Derivatives of splines -/

/-- Specification: `S` is the polynomial that the spline with the `N` coefficients `c` is on the interval `i`. -/
def IsSplinePiece (t : Nat → Rat) (b : Rat) (p N : Nat) (c : Nat → Rat) (i : Nat) (S : Rat[X]) : Prop :=
  ∀ z, Spec.InCell t b z i → ∑ l ∈ range N, c l * Spec.bspline t b p l z = S.eval z

theorem isSplinePiece {t : Nat → Rat} (ht : Monotone t) {b : Rat} {p N m : Nat} (hm : m + p < N) (c : Nat → Rat)
    {P : Nat → Rat[X]} (hP : ∀ r, r ≤ p → IsPiece t b p (m + r) (m + p) (P r)) :
    IsSplinePiece t b p N c (m + p) (∑ r ∈ range (p + 1), C (c (m + r)) * P r) := by
  intro z hz
  rw [cell_sum hm (f := fun l => c l * Spec.bspline t b p l z) (fun i hi => by
    rw [Spec.bspline_eq_piece ht hz, Spec.piece_zero _ _ _ _ (by omega), eval_zero, mul_zero]), eval_finsetSum]
  refine sum_congr rfl fun r hr => ?_
  rw [mem_range] at hr
  rw [eval_mul, eval_C, ← hP r (by omega) z hz]

theorem combination_deriv {p m k : Nat} (c : Nat → Rat) (P : Nat → Rat[X]) (z : Rat) :
    (derivative^[k] (∑ r ∈ range (p + 1), C (c (m + r)) * P r)).eval z =
      ∑ r ∈ range (p + 1), c (m + r) * (derivative^[k] (P r)).eval z := by
  rw [iterate_derivative_sum, eval_finsetSum]
  refine sum_congr rfl fun r _ => ?_
  rw [iterate_derivative_C_mul, eval_mul, eval_C]

/-- The copy of a column. -/
theorem derivColumn_ok {p N o : Nat} (ho : o ≤ N) {d : Arr2 Rat} (hr : d.rows = p + 1) (hc : d.cols = N + 1) {D : Nat → Rat}
    (h : ∀ r : Nat, r ≤ p → d.val r o = some (D r)) :
    ∃ v, Rounded.column p o d = .ok v ∧ v.size = p + 1 ∧ ∀ r, r ≤ p → v.val r = some (D r) := by
  obtain ⟨v, e, h1, h2⟩ := forLoop_inv (f := fun i v => do
      let y ← d.rd i o
      v.wr i y) (fun i (v : Arr Rat) => v.size = p + 1 ∧ ∀ r, r < i → v.val r = some (D r)) (p + 1) 0 (Arr.uninit (p + 1))
    ⟨rfl, fun r hr => by omega⟩
    (by
      rintro i v - hi ⟨h1, h2⟩
      rw [Nat.zero_add] at hi
      refine ⟨_, by rw [Arr2.rd_ok ⟨by omega, by omega, by omega, by omega⟩ (h i (by omega)), Res.ok_bind, Arr.wr_ok (by omega)], by
        simpa using h1, fun r hr => ?_⟩
      rw [Arr.set_val]
      split
      · subst r; rfl
      · exact h2 r (by omega))
  exact ⟨v, e, h1, fun r hr => h2 r (by omega)⟩

/-- One more term, known up to a relative error. -/
theorem sum_step_le (hfl : RoundsAll fl) {m : Nat} {s S T y Y Z : Rat} (hS : |S| ≤ T) (h : |s - S| ≤ (up m - 1) * T)
    (hY : |Y| ≤ Z) (hy : |y - Y| ≤ (up m - 1) * Z) :
    |S + Y| ≤ T + Z ∧ |fl (s + y) - (S + Y)| ≤ (up (m + 1) - 1) * (T + Z) := by
  have k0 : |S + Y| ≤ T + Z := (abs_add_le _ _).trans (add_le_add hS hY)
  refine ⟨k0, fl_step hfl k0 ?_⟩
  rw [add_sub_add_comm, mul_add]
  exact (abs_add_le _ _).trans (add_le_add h hy)

/-- The computed sum of products, whatever the signs. -/
theorem sum1_terms (hfl : RoundsAll fl) {p m N q : Nat} (hm : m + p < N) (hN : N < 2 ^ 63) {c : Nat → Rat}
    {v : Arr Rat} (hs : v.size = p + 1) {f g T : Nat → Rat} (hv : ∀ r, r ≤ p → v.val r = some (f r))
    (hg : ∀ r, r ≤ p → |g r| ≤ T r) (hf : ∀ r, r ≤ p → |f r - g r| ≤ (up q - 1) * T r) :
    ∃ y, sum1 fl p v (BitVec.ofNat 64 m) (coefsOf N c) = .ok y ∧
      |y - ∑ r ∈ range (p + 1), c (m + r) * g r| ≤ (up (q + p + 2) - 1) * ∑ r ∈ range (p + 1), |c (m + r)| * T r := by
  obtain ⟨y, e, -, h⟩ := forLoop_inv (f := fun i y => do
      let c ← coefsOf N c [BitVec.ofNat 64 m + BitVec.ofNat 64 i]
      let w ← v.rd i
      .ok (fl (y + fl (c * w))))
    (fun i y => |∑ r ∈ range i, c (m + r) * g r| ≤ ∑ r ∈ range i, |c (m + r)| * T r ∧
      |y - ∑ r ∈ range i, c (m + r) * g r| ≤ (up (q + 1 + i) - 1) * ∑ r ∈ range i, |c (m + r)| * T r) (p + 1) 0 0 (by simp)
    (by
      rintro i y - hi ⟨h1, h2⟩
      rw [Nat.zero_add] at hi
      have e1 : BitVec.ofNat 64 m + BitVec.ofNat 64 i = BitVec.ofNat 64 (m + i) := by
        rw [BitVec.ofNat_add]
      rw [e1, coefsOf_ok (by omega) (by omega), Res.ok_bind, Arr.rd_ok (by omega) (hv i (by omega)), Res.ok_bind]
      refine ⟨_, rfl, ?_⟩
      rw [sum_range_succ, sum_range_succ]
      have k1 := mul_step (hg i (by omega)) (hf i (by omega)) (Near.refl (c (m + i)))
      have k2 := fl_step hfl k1.1 k1.2
      rw [mul_comm (f i), mul_comm (g i), mul_comm (T i), Nat.add_zero] at k2
      rw [mul_comm (g i), mul_comm (T i)] at k1
      have T0 : 0 ≤ |c (m + i)| * T i := (abs_nonneg _).trans k1.1
      refine sum_step_le hfl h1 h2 k1.1 (k2.trans (mul_le_mul_of_nonneg_right ?_ T0))
      exact sub_le_sub_right (up_mono (show q + 1 ≤ q + 1 + i by omega)) 1)
  rw [Nat.zero_add, show q + 1 + (p + 1) = q + p + 2 by omega] at h
  exact ⟨y, e, h⟩

/-- `deriv` with rounding on splines with the knots `t`. -/
theorem nubs_derivR (hfl : RoundsAll fl) {u : NUBS Rat} {p n : Nat} {t : Nat → Rat} (hu : u.Is p n t) (hp' : p ≤ 2 ^ 20)
    (g0 : t p < t (p + 1)) (g1 : t (p + n - 1) < t (p + n)) (x : Rat) (hx1 : t p ≤ x) (hx2 : x ≤ t (p + n))
    (k : Nat) (hk0 : 0 < k) (hk : k ≤ p) (hf : ∀ l, l ≤ k → p.descFactorial l < 2 ^ 31) (hN : n + p < 2 ^ 63) (c : Nat → Rat) {M : Rat}
    (hM : ∀ i, i < n + p → |c i| ≤ M) :
    ∃ m y S, m < n ∧ Spec.InCell t (t (p + n)) x (m + p) ∧ IsSplinePiece t (t (p + n)) p (n + p) c (m + p) S ∧
      Rounded.deriv fl u (BitVec.ofNat 64 k) x (coefsOf (n + p) c) = .ok y ∧
      |y - (derivative^[k] S).eval x| ≤
        (11 * p + 6) / 2 ^ 53 * ((p.descFactorial k : Nat) * (k + 1) * (2 / (t (m + p + 1) - t (m + p))) ^ k * M) := by
  obtain ⟨m, d, hm, e, hd⟩ := nubs_nderivsR hfl hu g0 g1 x hx1 hx2 k hk hf (Arr2.uninit (p + 1) (k + 1)) rfl rfl
  choose! P α Q y h1 h2 h3 h4 h5 h6 using fun r hr => hd.value r k hr (le_refl k)
  obtain ⟨v, e2, s1, s2⟩ := derivColumn_ok (le_refl k) hd.rows hd.cols h4
  have hB0 : ∀ q i, 0 ≤ Spec.bspline t (t (p + n)) q i x := Spec.bspline_nonneg hu.mono hd.cell
  have hg : ∀ r, r ≤ p → |(derivative^[k] (P r)).eval x| ≤
      ∑ j ∈ range (k + 1), |α r j| * Spec.bspline t (t (p + n)) (p - k) (m + r + j) x := by
    intro r hr
    rw [h3 r hr, eval_finsetSum]
    refine (abs_sum_le_sum_abs _ _).trans (le_of_eq (sum_congr rfl fun j _ => ?_))
    rw [eval_mul, eval_C, abs_mul, ← h2 r hr j x hd.cell, abs_of_nonneg (hB0 _ _)]
  obtain ⟨w, e3, hw⟩ := sum1_terms hfl (m := m) (N := n + p) (c := c) (q := 9 * p + 3) (by omega) hN s1 s2 hg h5
  have hM0 : 0 ≤ M := (abs_nonneg _).trans (hM 0 (by omega))
  have hδ : 0 < t (m + p + 1) - t (m + p) := sub_pos.2 hd.cell.lt
  obtain ⟨B, hB⟩ : ∃ B : Rat, B = (p.descFactorial k : Nat) * (2 / (t (m + p + 1) - t (m + p))) ^ k := ⟨_, rfl⟩
  have hBn : 0 ≤ B := by rw [hB]; positivity
  refine ⟨m, w, _, hm, hd.cell, isSplinePiece hu.mono (by omega) c h1, ?_, ?_⟩
  · have ek : (BitVec.ofNat 64 k).toNat = k := by rw [BitVec.toNat_ofNat]; omega
    have g1 : decide (0 < k ∧ k ≤ p) = true := decide_eq_true ⟨hk0, hk⟩
    rw [Rounded.deriv, ek, hu.degree, g1, Res.guardAbort_true, Res.ok_bind, e, Res.ok_bind]
    dsimp only
    rw [e2, Res.ok_bind, show uid1 (el1 (BitVec.ofNat 64 m)) = .ok (BitVec.ofNat 64 m) from rfl, Res.ok_bind, e3]
  · rw [combination_deriv]
    have b1 : ∑ r ∈ range (p + 1), |c (m + r)| * ∑ j ∈ range (k + 1), |α r j| * Spec.bspline t (t (p + n)) (p - k) (m + r + j) x ≤
        M * (B * (k + 1)) := by
      have b2 : ∀ r ∈ range (p + 1), |c (m + r)| * ∑ j ∈ range (k + 1), |α r j| * Spec.bspline t (t (p + n)) (p - k) (m + r + j) x ≤
          M * (B * ∑ j ∈ range (k + 1), Spec.bspline t (t (p + n)) (p - k) (m + j + r) x) := by
        intro r hr
        rw [mem_range] at hr
        refine mul_le_mul (hM _ (by omega)) ?_ (sum_nonneg fun j _ => mul_nonneg (abs_nonneg _) (hB0 _ _)) hM0
        rw [mul_sum]
        refine sum_le_sum fun j hj => ?_
        rw [mem_range] at hj
        rw [show m + j + r = m + r + j by omega]
        by_cases hz : Spec.bspline t (t (p + n)) (p - k) (m + r + j) x = 0
        · rw [hz, mul_zero, mul_zero]
        · refine mul_le_mul_of_nonneg_right ?_ (hB0 _ _)
          rw [hB]; exact h6 r (by omega) j (by omega) hz
      refine (sum_le_sum b2).trans ?_
      rw [← mul_sum, ← mul_sum, sum_comm]
      refine mul_le_mul_of_nonneg_left (mul_le_mul_of_nonneg_left ?_ hBn) hM0
      refine (sum_le_sum fun j _ => bspline_some hu.mono hd.cell (p - k) (m + j) (p + 1) (by omega)).trans ?_
      simp
    have b3 := up_le (9 * p + 3 + p + 2) (by omega)
    have hp0 : (0 : Rat) ≤ p := Nat.cast_nonneg p
    have b4 : up (9 * p + 3 + p + 2) - 1 ≤ (11 * p + 6) / 2 ^ 53 := by
      refine (sub_le_iff_le_add'.2 b3).trans ?_
      push_cast
      refine div_le_div_of_nonneg_right ?_ (by norm_num)
      linarith
    have T0 : 0 ≤ ∑ r ∈ range (p + 1), |c (m + r)| * ∑ j ∈ range (k + 1), |α r j| * Spec.bspline t (t (p + n)) (p - k) (m + r + j) x :=
      sum_nonneg fun r _ => mul_nonneg (abs_nonneg _) (sum_nonneg fun j _ => mul_nonneg (abs_nonneg _) (hB0 _ _))
    refine hw.trans ((mul_le_mul b4 b1 T0 (by positivity)).trans (le_of_eq ?_))
    rw [hB]; ring

/-- The derivatives of a spline on non-uniform B-splines, whatever the rounding: `deriv` of order `k` returns the derivative
of the polynomial the spline is on the interval containing the coordinate, up to
`(11 p + 6) 2⁻⁵³ (k + 1) p! / (p - k)! (2 / δ)^k` times the largest coefficient, `δ` being the length of the interval.
Missing: factors `p! / (p - k)!` that are not of type `int` (`C33_factor_overflow`); all are for degrees of at most 12. -/
theorem C67_spline_non_uniform_partial (hfl : RoundsAll fl) (p : Nat) (hp : 0 < p) (hp' : p ≤ 2 ^ 20) (breaks : List Rat)
    (hb : GoodBreaks breaks) (hs : breaks.length + 2 * p < 2 ^ 63) :
    ∃ u t, NUBS.mk' p false breaks = .ok u ∧ Monotone t ∧
      (∀ i (h : i < breaks.length), t (p + i) = breaks[i]) ∧
      (∀ k, k < breaks.length + 2 * p → u.knots.coordinate (el1 (BitVec.ofNat 64 k)) = .ok (t k)) ∧
      ∀ x, t p ≤ x → x ≤ t (p + (breaks.length - 1)) → ∀ k, 0 < k → k ≤ p →
        (p ≤ 12 ∨ ∀ l, l ≤ k → p.descFactorial l < 2 ^ 31) → ∀ (c : Nat → Rat) (M : Rat),
        (∀ i, i < breaks.length - 1 + p → |c i| ≤ M) →
        ∃ m y S, m < breaks.length - 1 ∧ Spec.InCell t (t (p + (breaks.length - 1))) x (m + p) ∧
          IsSplinePiece t (t (p + (breaks.length - 1))) p (breaks.length - 1 + p) c (m + p) S ∧
          Rounded.deriv fl u (BitVec.ofNat 64 k) x (coefsOf (breaks.length - 1 + p) c) = .ok y ∧
          |y - (derivative^[k] S).eval x| ≤
            (11 * p + 6) / 2 ^ 53 * ((p.descFactorial k : Nat) * (k + 1) * (2 / (t (m + p + 1) - t (m + p))) ^ k * M) := by
  have h2 := hb.two
  obtain ⟨u, t, e, -, hu, hk⟩ := NUBS.mk'_is hp false hb.two hs hb.sorted hb.lt
  obtain ⟨g0, g1⟩ := goodEnds hb hk
  refine ⟨u, t, e, hu.mono, hk.inner, fun k hk => hu.coord k (by omega), fun x hx1 hx2 k hk0 hk hf c M hM => ?_⟩
  exact nubs_derivR hfl hu hp' g0 g1 x hx1 hx2 k hk0 hk (factors_small hk hf) (by omega) c hM

/-- The same for periodic splines. -/
theorem C67_spline_periodic_non_uniform_partial (hfl : RoundsAll fl) (p : Nat) (hp : 0 < p) (hp' : p ≤ 2 ^ 20)
    (breaks : List Rat) (hb : WideEnds fl breaks) (hs : breaks.length + 2 * p < 2 ^ 63) :
    ∃ u t, Rounded.mkNubs fl p true breaks = .ok u ∧ Monotone t ∧
      (∀ i (h : i < breaks.length), t (p + i) = breaks[i]) ∧
      (∀ k, k < breaks.length + 2 * p → u.knots.coordinate (el1 (BitVec.ofNat 64 k)) = .ok (t k)) ∧
      ∀ x, t p ≤ x → x ≤ t (p + (breaks.length - 1)) → ∀ k, 0 < k → k ≤ p →
        (p ≤ 12 ∨ ∀ l, l ≤ k → p.descFactorial l < 2 ^ 31) → ∀ (c : Nat → Rat) (M : Rat),
        (∀ i, i < breaks.length - 1 + p → |c i| ≤ M) →
        ∃ m y S, m < breaks.length - 1 ∧ Spec.InCell t (t (p + (breaks.length - 1))) x (m + p) ∧
          IsSplinePiece t (t (p + (breaks.length - 1))) p (breaks.length - 1 + p) c (m + p) S ∧
          Rounded.deriv fl u (BitVec.ofNat 64 k) x (coefsOf (breaks.length - 1 + p) c) = .ok y ∧
          |y - (derivative^[k] S).eval x| ≤
            (11 * p + 6) / 2 ^ 53 * ((p.descFactorial k : Nat) * (k + 1) * (2 / (t (m + p + 1) - t (m + p))) ^ k * M) := by
  have h2 := hb.two
  obtain ⟨u, t, e, -, hu, hk, g0, g1, -⟩ := mkNubs_is hfl hp hs hb
  refine ⟨u, t, e, hu.mono, hk, fun k hk => hu.coord k (by omega), fun x hx1 hx2 k hk0 hk hf c M hM => ?_⟩
  exact nubs_derivR hfl hu hp' g0 g1 x hx1 hx2 k hk0 hk (factors_small hk hf) (by omega) c hM

/-- `deriv` at a known cell and offset. -/
theorem ubs_derivR (hfl : RoundsAll fl) {p n k m : Nat} (hp' : p < 2 ^ 20) (hk : k ≤ p) (hm : m < n) (hn : n + p < 2 ^ 63)
    {z h : Rat} (hh : 0 < h) {d : Arr2 Rat} (hd : NDerivClose p n z m k d h) (c : Nat → Rat) {M : Rat}
    (hM : ∀ i, i < n + p → |c i| ≤ M) :
    ∃ v y S, Rounded.column p k d = .ok v ∧ IsSplinePiece (intKnot p) (n + 1) p (n + p) c (m + p) S ∧
      sum1 fl p v (BitVec.ofNat 64 m) (coefsOf (n + p) c) = .ok y ∧
      |y * h ^ k - (derivative^[k] S).eval z| ≤
        (p + 1) * 2 ^ k * (((p - k : Nat) : Rat) * (((p - k : Nat) : Rat) + 13) + 14 * k + 2 * p + 7) / 2 ^ 53 * M := by
  choose! P y h1 h4 h5 h6 using fun r hr => hd.value r k hr (le_refl k)
  obtain ⟨v, e2, s1, s2⟩ := derivColumn_ok (le_refl k) hd.rows hd.cols h4
  have hM0 : 0 ≤ M := (abs_nonneg _).trans (hM 0 (by omega))
  obtain ⟨w, e3, hw⟩ := sum1_terms hfl (m := m) (N := n + p) (c := c) (q := 0) (g := y) (T := fun r => |y r|) (by omega) hn s1 s2
    (fun r _ => le_refl _) (fun r _ => by simp [up])
  refine ⟨v, w, _, e2, isSplinePiece (intKnot_mono p) (by omega) c (fun r hr => by
    rw [Nat.add_comm m p]; exact h1 r hr), e3, ?_⟩
  rw [combination_deriv]
  obtain ⟨E, hE⟩ : ∃ E : Rat, E = 2 ^ k * (((p - k : Nat) : Rat) * (((p - k : Nat) : Rat) + 13) + 14 * k + 4) / 2 ^ 53 := ⟨_, rfl⟩
  rw [← hE] at h6
  have hpos : 0 < h ^ k := pow_pos hh k
  have p2 : (0 : Rat) < 2 ^ k := by positivity
  have k0 : (0 : Rat) ≤ k := Nat.cast_nonneg k
  have hp0 : (0 : Rat) ≤ p := Nat.cast_nonneg p
  have q0 : (0 : Rat) ≤ ((p - k : Nat) : Rat) := Nat.cast_nonneg _
  have q1 : ((p - k : Nat) : Rat) ≤ 1048576 := by exact_mod_cast (show p - k ≤ 1048576 by omega)
  have k1 : (k : Rat) ≤ 1048576 := by exact_mod_cast (show k ≤ 1048576 by omega)
  have hE1 : E ≤ 2 ^ k / 8 := by
    have : ((p - k : Nat) : Rat) * (((p - k : Nat) : Rat) + 13) ≤ 1048576 * (1048576 + 13) :=
      mul_le_mul q1 (by linarith) (by linarith) (by norm_num)
    rw [hE, mul_div_assoc, div_eq_mul_one_div (2 ^ k : Rat) 8]
    refine mul_le_mul_of_nonneg_left ?_ p2.le
    rw [div_le_iff₀ (by norm_num)]
    linarith
  have hy : ∀ r, r ≤ p → |y r| * h ^ k ≤ 2 ^ k * (9 / 8) := by
    intro r hr
    have a1 := h6 r hr
    have a2 := h5 r hr
    have a3 := abs_sub_abs_le_abs_sub (y r * h ^ k) ((derivative^[k] (P r)).eval z)
    rw [abs_mul, abs_of_pos hpos] at a3
    linarith
  have hw' := mul_le_mul_of_nonneg_right hw hpos.le
  rw [← abs_of_pos hpos, ← abs_mul, abs_of_pos hpos, sub_mul, mul_assoc, sum_mul] at hw'
  have b1 : ∑ r ∈ range (p + 1), |c (m + r)| * |y r| * h ^ k ≤ (p + 1) * (M * (2 ^ k * (9 / 8))) := by
    have : ∀ r ∈ range (p + 1), |c (m + r)| * |y r| * h ^ k ≤ M * (2 ^ k * (9 / 8)) := by
      intro r hr
      rw [mem_range] at hr
      rw [mul_assoc]
      exact mul_le_mul (hM _ (by omega)) (hy r (by omega)) (mul_nonneg (abs_nonneg _) hpos.le) hM0
    refine (sum_le_sum this).trans (le_of_eq ?_)
    simp
  have b2 : |∑ r ∈ range (p + 1), c (m + r) * y r * h ^ k - ∑ r ∈ range (p + 1), c (m + r) * (derivative^[k] (P r)).eval z| ≤
      (p + 1) * (M * E) := by
    rw [← sum_sub_distrib]
    have : ∀ r ∈ range (p + 1), |c (m + r) * y r * h ^ k - c (m + r) * (derivative^[k] (P r)).eval z| ≤ M * E := by
      intro r hr
      rw [mem_range] at hr
      rw [mul_assoc, ← mul_sub, abs_mul]
      exact mul_le_mul (hM _ (by omega)) (h6 r (by omega)) (abs_nonneg _) hM0
    refine (abs_sum_le_sum_abs _ _).trans ((sum_le_sum this).trans (le_of_eq ?_))
    simp
  have b3 := up_le (0 + p + 2) (by omega)
  have b4 : up (0 + p + 2) - 1 ≤ 17 / 16 * (p + 2) / 2 ^ 53 := by
    refine (sub_le_iff_le_add'.2 b3).trans (le_of_eq ?_)
    push_cast; ring
  have S0 : 0 ≤ ∑ r ∈ range (p + 1), |c (m + r)| * |y r| * h ^ k :=
    sum_nonneg fun r _ => mul_nonneg (mul_nonneg (abs_nonneg _) (abs_nonneg _)) hpos.le
  have b5 := mul_le_mul b4 b1 S0 (by positivity)
  have hw2 : |w * h ^ k - ∑ r ∈ range (p + 1), c (m + r) * y r * h ^ k| ≤
      (up (0 + p + 2) - 1) * ∑ r ∈ range (p + 1), |c (m + r)| * |y r| * h ^ k := by
    rw [← sum_mul, ← sum_mul]
    rw [← sum_mul] at hw'
    exact hw'
  have b6 := abs_sub_le (w * h ^ k) (∑ r ∈ range (p + 1), c (m + r) * y r * h ^ k)
    (∑ r ∈ range (p + 1), c (m + r) * (derivative^[k] (P r)).eval z)
  refine b6.trans ((add_le_add (hw2.trans b5) b2).trans ?_)
  rw [hE]
  have b7 : 17 / 16 * ((p : Rat) + 2) / 2 ^ 53 * ((p + 1) * (M * (2 ^ k * (9 / 8)))) ≤
      (p + 1) * 2 ^ k * (2 * p + 3) / 2 ^ 53 * M := by
    have c1 : 0 ≤ ((p : Rat) + 1) * 2 ^ k / 2 ^ 53 * M := by positivity
    have c2 : 17 / 16 * ((p : Rat) + 2) * (9 / 8) ≤ 2 * p + 3 := by linarith
    have c3 := mul_le_mul_of_nonneg_left c2 c1
    calc _ = ((p : Rat) + 1) * 2 ^ k / 2 ^ 53 * M * (17 / 16 * (p + 2) * (9 / 8)) := by ring
      _ ≤ _ := c3
      _ = _ := by ring
  refine (add_le_add_left b7 _).trans (le_of_eq ?_)
  ring

/-- The derivatives of a spline on uniform B-splines, whatever the rounding: `deriv` of order `k` returns the derivative of
the polynomial the spline is on the interval `[m, m + 1]`, in units of the step, at a point `z` that represents the
coordinate, up to an error that is an explicit multiple of the largest coefficient divided by the power `k` of the step.
Missing: nothing is promised if the coordinate is located past the last cell (`C60_past_the_end`), which can only happen
within a few units of the last place of the last break point; there the behaviour is undefined. -/
theorem C67_spline_uniform_partial (hfl : RoundsAll fl) {a b : Rat} (hab : a < b) {n p : Nat} (hn : 0 < n)
    (hn' : n + 1 < 2 ^ 31) (hp' : p < 2 ^ 20) (hres : |a| * n ≤ 2 ^ 46 * (b - a)) {u : Knots} (hu : u = mkKnots fl a b n p)
    {x : Rat} (h1 : u.rmin fl ≤ x) (h2 : x ≤ u.rmax fl) (k : Nat) (hk0 : 0 < k) (hk : k ≤ p) (c : Nat → Rat) {M : Rat}
    (hM : ∀ i, i < n + p → |c i| ≤ M)
    (hx : x - u.rmin fl ≤ (1 - 1 / 2 ^ 50) * (n * u.step) ∨ x = u.rmax fl) :
    ∃ (m : Nat) (z y : Rat) (S : Rat[X]), m < n ∧ (m : Rat) ≤ z ∧ z ≤ m + 1 ∧
      (x < u.rmax fl → |z - (x - u.rmin fl) / u.step| ≤ 1 / 2 ^ 50 * (n + 1)) ∧ (x = u.rmax fl → z = n) ∧
      IsSplinePiece (intKnot p) (n + 1) p (n + p) c (m + p) S ∧
      u.deriv fl (BitVec.ofNat 64 k) x (coefsOf (n + p) c) = .ok y ∧
      |y * u.step ^ k - (derivative^[k] S).eval z| ≤
        (p + 1) * 2 ^ k * (((p - k : Nat) : Rat) * (((p - k : Nat) : Rat) + 13) + 14 * k + 2 * p + 7) / 2 ^ 53 * M := by
  obtain ⟨hs, -⟩ := knots_bounds hfl hab hn (by omega) hp'.le hres
  rw [← hu] at hs
  obtain ⟨m, z, d, e, hd, q1, q2, q3⟩ := C67_uniform_partial hfl hab hn hn' hp' hres hu h1 h2 k hk
    (Arr2.uninit (p + 1) (k + 1)) rfl rfl
  have hm : m < n := by
    rcases hx with hx | hx
    · exact q1 hx
    · have := (q3 hx).1; omega
  obtain ⟨v, y, S, e1, hS, e2, he⟩ := ubs_derivR hfl hp' hk hm (by omega) hs hd c hM
  refine ⟨m, z, y, S, hm, hd.cell.2.1, hd.cell.2.2, q2, fun h => (q3 h).2, hS, ?_, he⟩
  have hup : u.p = p := by rw [hu]; rfl
  have ek : (BitVec.ofNat 64 k).toNat = k := by rw [BitVec.toNat_ofNat]; omega
  have g1 : decide (0 < k ∧ k ≤ p) = true := decide_eq_true ⟨hk0, hk⟩
  have ej : BitVec.ofInt 64 (m : Int) = BitVec.ofNat 64 m := by simp
  rw [Knots.deriv, ek, hup, g1, Res.guardAbort_true, Res.ok_bind, e, Res.ok_bind]
  dsimp only
  rw [e1, Res.ok_bind, ej, e2]

/-! ## Non-trivial cases -/

/-- Cubic splines on a grid with a double break point: the derivatives up to order 3. -/
example : ∃ u, NUBS.mk' 3 false [(0 : Rat), 1, 3, 4, 6, 6, 7] = .ok u ∧ ∃ m d,
    Rounded.evalBasisAndNDerivs round53 u (Arr2.uninit 4 4) (round53 (16 / 3)) 3 = .ok (d, el1 (BitVec.ofNat 64 m)) ∧
    ∃ t b, NDerivNear t b 3 (round53 (16 / 3)) m 3 d (34 / 2 ^ 53) := by
  obtain ⟨u, t, e, ht, k1, -, k2⟩ := C67_non_uniform_partial round53_all 3 (by norm_num) (by norm_num)
    [(0 : Rat), 1, 3, 4, 6, 6, 7] ⟨by decide, (isSorted_iff _).1 (by decide +kernel), by decide +kernel, by decide +kernel⟩ (by decide)
  obtain ⟨m, d, -, e1, e2⟩ := k2 (round53 (16 / 3))
    (by rw [show 3 = 3 + 0 by rfl, k1 0 (by decide)]; decide +kernel) (by rw [k1 _ (by decide)]; decide +kernel) 3 (le_refl _)
    (Or.inl (by norm_num)) (Arr2.uninit 4 4) rfl rfl
  exact ⟨u, e, m, d, e1, t, _, e2.mono ht (by norm_num)⟩

/-- Periodic ones. -/
example : ∃ u, Rounded.mkNubs round53 3 true [round53 (1 / 10), round53 (3 / 10), 1, 2, 2, round53 (31 / 10)] = .ok u ∧ ∃ m d,
    Rounded.evalBasisAndNDerivs round53 u (Arr2.uninit 4 3) (round53 (4 / 3)) 2 = .ok (d, el1 (BitVec.ofNat 64 m)) := by
  obtain ⟨u, t, e, -, k1, -, k2⟩ := C67_periodic_non_uniform_partial round53_all 3 (by norm_num) (by norm_num)
    [round53 (1 / 10), round53 (3 / 10), 1, 2, 2, round53 (31 / 10)]
    ⟨⟨by decide, (isSorted_iff _).1 (by decide +kernel), by decide +kernel, by decide +kernel⟩,
      by decide +kernel, by decide +kernel, by decide +kernel, by decide +kernel⟩ (by decide)
  obtain ⟨m, d, -, e1, -⟩ := k2 (round53 (4 / 3))
    (by rw [show 3 = 3 + 0 by rfl, k1 0 (by decide)]; decide +kernel) (by rw [k1 _ (by decide)]; decide +kernel) 2 (by norm_num)
    (Or.inl (by norm_num)) (Arr2.uninit 4 3) rfl rfl
  exact ⟨u, e, m, d, e1⟩

/-- Uniform ones. -/
example : ∃ (c : Nat) (z h : Rat) (d : Arr2 Rat), (mkKnots round53 0 (round53 (31 / 10)) 10 3).evalBasisAndNDerivs round53
    (Arr2.uninit 4 4) (round53 (3 / 2)) 3 = .ok (d, (c : Int)) ∧ NDerivClose 3 10 z c 3 d h ∧ c < 10 := by
  obtain ⟨c, z, d, e, h, h1, -, -⟩ := C67_uniform_partial (a := 0) (b := round53 (31 / 10)) (n := 10) (p := 3)
    (x := round53 (3 / 2)) round53_all (by decide +kernel) (by norm_num) (by norm_num) (by norm_num)
    (by norm_num; decide +kernel) rfl (by decide +kernel) (by decide +kernel) 3 (le_refl _) (Arr2.uninit 4 4) rfl rfl
  exact ⟨c, z, _, d, e, h, h1 (by decide +kernel)⟩

/-- The second derivative of a spline; the cell of the coordinate has length 2. -/
example : ∃ u t b m y S, NUBS.mk' 3 false [(0 : Rat), 1, 3, 4, 6, 6, 7] = .ok u ∧
    Rounded.deriv round53 u 2 (round53 (16 / 3)) (coefsOf 9 fun i => (-1) ^ i) = .ok y ∧
    IsSplinePiece t b 3 9 (fun i => (-1) ^ i) (m + 3) S ∧
    |y - (derivative^[2] S).eval (round53 (16 / 3))| ≤ 39 / 2 ^ 53 * (18 * (2 / (t (m + 3 + 1) - t (m + 3))) ^ 2) := by
  obtain ⟨u, t, e, -, k1, -, k2⟩ := C67_spline_non_uniform_partial round53_all 3 (by norm_num) (by norm_num)
    [(0 : Rat), 1, 3, 4, 6, 6, 7] ⟨by decide, (isSorted_iff _).1 (by decide +kernel), by decide +kernel, by decide +kernel⟩ (by decide)
  obtain ⟨m, y, S, -, -, h1, e1, h2⟩ := k2 (round53 (16 / 3))
    (by rw [show 3 = 3 + 0 by rfl, k1 0 (by decide)]; decide +kernel) (by rw [k1 _ (by decide)]; decide +kernel) 2 (by norm_num)
    (by norm_num) (Or.inl (by norm_num)) (fun i => (-1) ^ i) 1 (fun i _ => by rw [abs_pow, abs_neg, abs_one, one_pow])
  refine ⟨u, t, _, m, y, S, e, e1, h1, h2.trans (le_of_eq ?_)⟩
  rw [show Nat.descFactorial 3 2 = 6 from rfl]
  push_cast
  ring

/-- The second derivative of a spline on uniform B-splines. -/
example : ∃ y : Rat, (mkKnots round53 0 (round53 (31 / 10)) 10 3).deriv round53 2 (round53 (3 / 2)) (coefsOf 13 fun i => (-1) ^ i) =
    .ok y := by
  obtain ⟨m, z, y, S, -, -, -, -, -, -, e, -⟩ := C67_spline_uniform_partial (a := 0) (b := round53 (31 / 10)) (n := 10) (p := 3)
    (x := round53 (3 / 2)) (M := 1) round53_all (by decide +kernel) (by norm_num) (by norm_num) (by norm_num)
    (by norm_num; decide +kernel) rfl (by decide +kernel) (by decide +kernel) 2 (by norm_num) (by norm_num)
    (fun i => (-1) ^ i) (fun i _ => by rw [abs_pow, abs_neg, abs_one, one_pow]) (Or.inl (by decide +kernel))
  exact ⟨y, e⟩

end DDC.Props
