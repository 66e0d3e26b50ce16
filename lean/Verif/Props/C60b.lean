import Verif.Model.RoundedKnots
import Verif.Props.C60

/-!
# C60, continued: periodic non-uniform B-splines with rounding

The constructor computes the knots outside of the domain with rounding.  The values of the B-splines are compared with
the B-splines on the computed knots, that are close to a periodic extension of the break points.
-/

namespace DDC.Props

open One Rounded Spec Finset NUBS

variable {fl : Rat → Rat}

/-- The computed knots `f`: the break points, and rounded sums or differences with the period `P` outside of them. -/
structure ComputedKnots (fl : Rat → Rat) (p n : Nat) (breaks : List Rat) (P : Rat) (f : Nat → Rat) : Prop where
  inner : ∀ i (h : i < breaks.length), f (p + i) = breaks[i]
  upper : ∀ j, 1 ≤ j → j ≤ p → f (p + n + j) = fl (f (p + j) + P)
  lower : ∀ j, 1 ≤ j → j ≤ p → f (p - j) = fl (f (p + n - j) - P)

/-- The loop filling the extra knots of the periodic case. -/
theorem fillPeriodicR_ok {p : Nat} {breaks : List Rat} (hl : 2 ≤ breaks.length) {a : Arr Rat} {f : Nat → Rat}
    (ha : Filled a (breaks.length + 2 * p) f)
    (hf : ∀ i (h : i < breaks.length), f (p + i) = breaks[i]) (P : Rat) :
    ∃ a' f', forLoop (Rounded.fillPeriodic fl p (breaks.length - 1) P) 1 p a = .ok a' ∧
      Filled a' (breaks.length + 2 * p) f' ∧ ComputedKnots fl p (breaks.length - 1) breaks P f' := by
  generalize hn : breaks.length - 1 = n
  have hN : breaks.length + 2 * p = n + 1 + 2 * p := by omega
  rw [hN] at ha ⊢
  obtain ⟨a', e, f', h1, h2, h3⟩ := forLoop_inv
    (f := Rounded.fillPeriodic fl p n P)
    (fun i a => ∃ f', Filled a (n + 1 + 2 * p) f' ∧
      (∀ i (h : i < breaks.length), f' (p + i) = breaks[i]) ∧
      (∀ j, 1 ≤ j → j < i → f' (p + n + j) = fl (f' (p + j) + P) ∧ f' (p - j) = fl (f' (p + n - j) - P)))
    p 1 a ⟨f, ha, hf, fun j h1 h2 => by omega⟩
    (by
      rintro i a hi hi' ⟨f', h1, h2, h3⟩
      have e0 : a.rd (p + n - i) = .ok (f' (p + n - i)) :=
        Arr.rd_ok (by rw [h1.1]; omega) (h1.2 _ (by omega))
      have e1 : a.wr (p - i) (fl (f' (p + n - i) - P)) =
        .ok (a.set (p - i) (fl (f' (p + n - i) - P))) := Arr.wr_ok (by rw [h1.1]; omega) _
      have F1 := h1.set (p - i) (fl (f' (p + n - i) - P))
      have e2 : (a.set (p - i) (fl (f' (p + n - i) - P))).rd (p + i) = .ok (f' (p + i)) := by
        refine Arr.rd_ok (by rw [F1.1]; omega) ?_
        rw [F1.2 _ (by omega)]
        simp only [show p + i ≠ p - i by omega, if_false]
      have e3 : (a.set (p - i) (fl (f' (p + n - i) - P))).wr (p + n + i) (fl (f' (p + i) + P)) =
          .ok ((a.set (p - i) (fl (f' (p + n - i) - P))).set (p + n + i) (fl (f' (p + i) + P))) :=
        Arr.wr_ok (by rw [Arr.set_size, h1.1]; omega) _
      refine ⟨_, by rw [Rounded.fillPeriodic, e0, Res.ok_bind, e1, Res.ok_bind, e2, Res.ok_bind, e3], _,
        F1.set _ _, ?_, ?_⟩
      · intro j hj
        simp only [show p + j ≠ p + n + i by omega, show p + j ≠ p - i by omega,
          if_false]
        exact h2 j hj
      · intro j hj1 hj2
        by_cases hji : j = i
        · subst hji
          simp only [show p + j ≠ p + n + j by omega, show p + j ≠ p - j by omega, show p - j ≠ p + n + j by omega,
            show p + n - j ≠ p + n + j by omega, show p + n - j ≠ p - j by omega, if_false, if_true, and_self]
        · simp only [show p + n + j ≠ p + n + i by omega, show p + n + j ≠ p - i by omega,
            show p + j ≠ p + n + i by omega, show p + j ≠ p - i by omega, show p - j ≠ p + n + i by omega,
            show p - j ≠ p - i by omega, show p + n - j ≠ p + n + i by omega, show p + n - j ≠ p - i by omega, if_false]
          exact h3 j hj1 (by omega))
  exact ⟨a', f', e, h1, h2, fun j hj1 hj2 => (h3 j hj1 (by omega)).1, fun j hj1 hj2 => (h3 j hj1 (by omega)).2⟩

/-- The computed knots are sorted when the cells at both ends are not tiny. -/
theorem ComputedKnots.sorted (hfl : RoundsAll fl) {p : Nat} {breaks : List Rat} {f : Nat → Rat} (hb : GoodBreaks breaks)
    (h : ComputedKnots fl p (breaks.length - 1) breaks
      (fl (f (p + (breaks.length - 1)) - f p)) f)
    (h0 : fl (f p) = f p) (h1 : fl (f (p + (breaks.length - 1))) = f (p + (breaks.length - 1)))
    (hfirst : 1 / 2 ^ 53 * (f (p + (breaks.length - 1)) - f p) ≤ f (p + 1) - f p)
    (hlast : 1 / 2 ^ 53 * (f (p + (breaks.length - 1)) - f p) ≤
      f (p + (breaks.length - 1)) - f (p + (breaks.length - 1) - 1)) (k : Nat)
    (hk : k + 1 < breaks.length + 2 * p) : f k ≤ f (k + 1) := by
  have hl := hb.two
  obtain ⟨n, hn⟩ : ∃ n, n = breaks.length - 1 := ⟨_, rfl⟩
  obtain ⟨P, hP⟩ : ∃ P, P = fl (f (p + (breaks.length - 1)) - f p) := ⟨_, rfl⟩
  have hin : ∀ k, p ≤ k → k < p + n → f k ≤ f (k + 1) := by
    intro k h1 h2
    obtain ⟨i, rfl⟩ : ∃ i, k = p + i := ⟨k - p, by omega⟩
    rw [h.inner i (by omega), Nat.add_assoc, h.inner (i + 1) (by omega)]
    exact hb.sorted i (i + 1) (by omega) (by omega)
  have hlt : 0 ≤ f (p + n) - f p := by
    have e0 := h.inner 0 (by omega)
    rw [Nat.add_zero] at e0
    rw [e0, h.inner n (by omega), sub_nonneg]
    exact hb.sorted 0 n (by omega) (by omega)
  have hP1 : (1 - 1 / 2 ^ 53) * (f (p + n) - f p) ≤ P := by
    rw [hP, ← hn]; exact le_fl hfl hlt
  rw [← hP] at h
  rw [← hn] at h h1 hfirst hlast
  have hup : ∀ m k, k < m → p ≤ k → k < 2 * p + n → f k ≤ f (k + 1) := by
    intro m
    induction m with
    | zero => intro k hk; omega
    | succ m ih =>
      intro k hkm hk1 hk2
      by_cases h3 : k < p + n
      · exact hin k hk1 h3
      · by_cases h4 : k = p + n
        · subst h4
          rw [h.upper 1 (by omega) (by omega), ← h1]
          apply hfl.mono
          linarith
        · obtain ⟨j, rfl⟩ : ∃ j, k = p + n + j := ⟨k - (p + n), by omega⟩
          rw [h.upper j (by omega) (by omega), Nat.add_assoc (p + n), h.upper (j + 1) (by omega) (by omega)]
          apply hfl.mono
          have := ih (p + j) (by omega) (by omega) (by omega)
          rw [Nat.add_assoc] at this
          linarith
  have hdn : ∀ m k, p - k ≤ m → k < 2 * p + n → f k ≤ f (k + 1) := by
    intro m
    induction m with
    | zero => intro k h1 h2; exact hup (k + 1) k (by omega) (by omega) h2
    | succ m ih =>
      intro k hk1 hk2
      by_cases h3 : p ≤ k
      · exact hup (k + 1) k (by omega) h3 hk2
      · obtain ⟨j, hj, hjp, rfl⟩ : ∃ j, 1 ≤ j ∧ j ≤ p ∧ k = p - j := ⟨p - k, by omega, by omega, by omega⟩
        have e1 := h.lower j (by omega) (by omega)
        by_cases h4 : j = 1
        · subst h4
          rw [e1, show p - 1 + 1 = p by omega, ← h0]
          apply hfl.mono
          linarith
        · have e2 := h.lower (j - 1) (by omega) (by omega)
          rw [show p - j + 1 = p - (j - 1) by omega, e1, e2]
          apply hfl.mono
          have := ih (p + n - j) (by omega) (by omega)
          rw [show p + n - j + 1 = p + n - (j - 1) by omega] at this
          linarith
  exact hdn (p - k) k (le_refl _) (by omega)

/-- The distance to the periodic extension. -/
theorem ComputedKnots.near (hfl : RoundsAll fl) {p n : Nat} {breaks : List Rat} {f : Nat → Rat} (hR : f p ≤ f (p + n))
    (h : ComputedKnots fl p n breaks (fl (f (p + n) - f p)) f) (k : Nat) (hk : k ≤ 2 * p) :
    |f (k + n) - (f k + (f (p + n) - f p))| ≤
      1 / 2 ^ 52 * (|f k| + |f (k + n)| + (f (p + n) - f p)) := by
  have hP := hfl.error (f (p + n) - f p)
  obtain ⟨P, hPe⟩ : ∃ P, P = fl (f (p + n) - f p) := ⟨_, rfl⟩
  rw [← hPe] at h hP
  rw [abs_of_nonneg (sub_nonneg.2 hR)] at hP
  have hR' := sub_nonneg.2 hR
  obtain ⟨D, hD⟩ : ∃ D, D = f (p + n) - f p := ⟨_, rfl⟩
  rw [← hD] at hP hR' ⊢
  have key : ∀ v, |v| ≤ 2 * |fl v| := fun v => by
    have h1 := hfl.error v
    have h2 := abs_sub_abs_le_abs_sub v (fl v)
    rw [abs_sub_comm] at h2
    norm_num at *
    linarith [abs_nonneg v]
  rcases lt_trichotomy k p with hkp | rfl | hkp
  · have e := h.lower (p - k) (by omega) (by omega)
    rw [show p - (p - k) = k by omega, show p + n - (p - k) = k + n by omega] at e
    have h1 := hfl.error (f (k + n) - P)
    have h2 := key (f (k + n) - P)
    rw [← e] at h1 h2
    have h3 : |f (k + n) - (f k + D)| ≤ |f k - (f (k + n) - P)| + |P - D| := by
      rw [show f (k + n) - (f k + D) = -(f k - (f (k + n) - P)) + (P - D) by ring]
      exact (abs_add_le _ _).trans (by rw [abs_neg])
    norm_num at *
    linarith [abs_nonneg (f (k + n)), abs_nonneg (f k)]
  · rw [show f (k + n) - (f k + D) = 0 by rw [hD]; ring, abs_zero]
    positivity
  · have e := h.upper (k - p) (by omega) (by omega)
    rw [show p + (k - p) = k by omega, show p + n + (k - p) = k + n by omega] at e
    have h1 := hfl.error (f k + P)
    have h2 := key (f k + P)
    rw [← e] at h1 h2
    have h3 : |f (k + n) - (f k + D)| ≤ |f (k + n) - (f k + P)| + |P - D| := by
      rw [show f (k + n) - (f k + D) = (f (k + n) - (f k + P)) + (P - D) by ring]
      exact abs_add_le _ _
    norm_num at *
    linarith [abs_nonneg (f (k + n)), abs_nonneg (f k)]

/-- The rounded constructor of clamped B-splines is the exact one. -/
theorem mkNubs_clamped (p : Nat) (breaks : List Rat) : Rounded.mkNubs fl p false breaks = NUBS.mk' p false breaks := rfl

/-- The rounded constructor of periodic B-splines, on break points that may make the knots unsorted. -/
theorem mkNubs_eq {p : Nat} (hp : 0 < p) {breaks : List Rat} (hl : 2 ≤ breaks.length)
    (hs : breaks.length + 2 * p < 2 ^ 63)
    (hlt : breaks[0] < breaks[breaks.length - 1]) :
    ∃ f : Nat → Rat, ComputedKnots fl p (breaks.length - 1) breaks (fl (f (p + (breaks.length - 1)) - f p)) f ∧
      Rounded.mkNubs fl p true breaks =
      if isSorted ((List.range (breaks.length + 2 * p)).map f) then
        .ok (nubs p true ((List.range (breaks.length + 2 * p)).map f) breaks.length)
      else .throw := by
  have h1 : decide (0 < p) = true := by simpa using hp
  obtain ⟨a, f, e1, ha, hf⟩ := fillBreaks_ok p breaks
  have r1 : a.rd p = .ok (f p) := Arr.rd_ok (by rw [ha.1]; omega) (ha.2 _ (by omega))
  have r2 : a.rd (breaks.length + p - 1) = .ok (f (p + (breaks.length - 1))) := by
    rw [show breaks.length + p - 1 = p + (breaks.length - 1) by omega]
    exact Arr.rd_ok (by rw [ha.1]; omega) (ha.2 _ (by omega))
  have e0 := hf 0 (by omega)
  rw [Nat.add_zero] at e0
  have h2 : decide (f p < f (p + (breaks.length - 1))) = true := by
    rw [e0, hf _ (by omega)]
    exact decide_eq_true hlt
  have hsz : (BitVec.ofNat 64 (0 + (breaks.length + 2 * p) - 0)).toNat - 2 * p = breaks.length := by
    rw [BitVec.toNat_ofNat]; omega
  have fin : ∀ (a' : Arr Rat) (f' : Nat → Rat), Filled a' (breaks.length + 2 * p) f' →
      (do
        let pts ← a'.toList
        let attr ← NonUniform.mk' () pts
        pure (⟨p, true, attr, seg () 0 (0 + (breaks.length + 2 * p)), seg () p (p + breaks.length),
          Elem.createReference ()⟩ : NUBS Rat)) =
      if isSorted ((List.range (breaks.length + 2 * p)).map f') then
        .ok (nubs p true ((List.range (breaks.length + 2 * p)).map f') breaks.length)
      else .throw := by
    intro a' f' h1
    have e := Arr.toList_ok f' (by rw [h1.1]; exact h1.2)
    rw [h1.1] at e
    simp only [e, Res.ok_bind, NonUniform.mk']
    cases isSorted ((List.range (breaks.length + 2 * p)).map f') <;>
      simp only [if_true, nubs, Nat.zero_add, Bool.false_eq_true, if_false] <;> rfl
  have s1 : Dom.ofSize (el1 0) (ve1 (BitVec.ofNat 64 (breaks.length + 2 * p))) =
      .ok (seg () 0 (0 + (breaks.length + 2 * p))) := ofSize_nat () 0 _
  have s2 : Dom.ofSize (el1 (BitVec.ofNat 64 p)) (ve1 (BitVec.ofNat 64 breaks.length)) =
      .ok (seg () p (p + breaks.length)) := ofSize_nat () p _
  obtain ⟨a', f', e2, h3, h4⟩ := fillPeriodicR_ok (fl := fl) hl ha hf (fl (f (p + (breaks.length - 1)) - f p))
  have hp0 : f' p = f p := by
    have e1 := h4.inner 0 (by omega)
    rw [Nat.add_zero] at e1; rw [e1, e0]
  have hp1 : f' (p + (breaks.length - 1)) = f (p + (breaks.length - 1)) := by
    rw [h4.inner _ (by omega), hf _ (by omega)]
  refine ⟨f', by rw [hp0, hp1]; exact h4, ?_⟩
  rw [← fin a' f' h3]
  simp only [Rounded.mkNubs, h1, Res.guardIll_true, Res.ok_bind, s1, s2, seg_size (Nat.zero_le _), hsz, e1,
    r1, r2, h2, Res.guardAbort_true, if_true, e2]

/-- The first and the last break points are floating-point numbers and the first and the last cells are not below a
unit in the last place of the period. -/
structure WideEnds (fl : Rat → Rat) (breaks : List Rat) : Prop extends GoodBreaks breaks where
  lower : fl breaks[0] = breaks[0]
  upper : fl breaks[breaks.length - 1] = breaks[breaks.length - 1]
  firstCell : 1 / 2 ^ 53 * (breaks[breaks.length - 1] - breaks[0]) ≤ breaks[1] - breaks[0]
  lastCell : 1 / 2 ^ 53 * (breaks[breaks.length - 1] - breaks[0]) ≤
    breaks[breaks.length - 1] - breaks[breaks.length - 2]

/-- What the rounded constructor of periodic B-splines returns. -/
theorem mkNubs_is (hfl : RoundsAll fl) {p : Nat} (hp : 0 < p) {breaks : List Rat}
    (hs : breaks.length + 2 * p < 2 ^ 63) (hb : WideEnds fl breaks) :
    ∃ u t, Rounded.mkNubs fl p true breaks = .ok u ∧ u.periodic = true ∧ u.Is p (breaks.length - 1) t ∧
      (∀ i (h : i < breaks.length), t (p + i) = breaks[i]) ∧
      t p < t (p + 1) ∧ t (p + (breaks.length - 1) - 1) < t (p + (breaks.length - 1)) ∧
      ∀ k, k ≤ 2 * p → |t (k + (breaks.length - 1)) - (t k + (t (p + (breaks.length - 1)) - t p))| ≤
        1 / 2 ^ 52 * (|t k| + |t (k + (breaks.length - 1))| + (t (p + (breaks.length - 1)) - t p)) := by
  have hl := hb.two
  obtain ⟨f, hf, e⟩ := mkNubs_eq (fl := fl) hp hl hs hb.lt
  have hN : breaks.length + 2 * p = breaks.length - 1 + 1 + 2 * p := by omega
  have f0 := hf.inner 0 (by omega)
  rw [Nat.add_zero] at f0
  have f1 := hf.inner 1 (by omega)
  have f2 := hf.inner (breaks.length - 1) (by omega)
  have f3 := hf.inner (breaks.length - 2) (by omega)
  rw [show p + (breaks.length - 2) = p + (breaks.length - 1) - 1 by omega] at f3
  have hso := hf.sorted hfl hb.toGoodBreaks (by rw [f0]; exact hb.lower) (by rw [f2]; exact hb.upper)
    (by rw [f0, f1, f2]; exact hb.firstCell) (by rw [f0, f2, f3]; exact hb.lastCell)
  have hinc : Increasing ((List.range (breaks.length + 2 * p)).map f) := by
    intro i j hij hj
    have hj : j < breaks.length + 2 * p := by simpa using hj
    simp only [List.getElem_map, List.getElem_range]
    clear * - hij hj hso
    induction j, hij using Nat.le_induction with
    | base => exact le_refl _
    | succ j hij ih => exact le_trans (ih (by omega)) (hso j hj)
  rw [if_pos ((isSorted_iff _).2 hinc)] at e
  have ht : ∀ k, k < breaks.length + 2 * p → f (min k (breaks.length + 2 * p - 1)) = f k := fun k hk => by
    rw [min_eq_left (by omega)]
  refine ⟨_, fun k => f (min k (breaks.length + 2 * p - 1)), e, rfl, ?_, ?_, ?_, ?_, ?_⟩
  · refine ⟨rfl, hp, by omega, by omega, ?_, ?_, rfl, ?_, fun k hk => ?_⟩
    · rw [← hN]; rfl
    · rw [show breaks.length - 1 + 1 = breaks.length by omega]; rfl
    · apply monotone_nat_of_le_succ
      intro k
      by_cases hk : k + 1 < breaks.length + 2 * p
      · rw [ht _ (by omega), ht _ (by omega)]
        exact hso k hk
      · rw [min_eq_right (by omega), min_eq_right (by omega)]
    · rw [ht _ (by omega)]
      have := nu_coordinate_ok () ((List.range (breaks.length + 2 * p)).map f) (i := k) (by omega)
        (by simp; omega)
      rw [show (nubs p true ((List.range (breaks.length + 2 * p)).map f) breaks.length).knots =
        ⟨(List.range (breaks.length + 2 * p)).map f, Elem.createReference ()⟩ from rfl, this]
      simp
  · intro i hi
    exact (ht _ (by omega)).trans (hf.inner i hi)
  · beta_reduce
    rw [ht _ (by omega), ht _ (by omega), f0, f1]; exact hb.first
  · beta_reduce
    rw [ht _ (by omega), ht _ (by omega), f2, f3]; exact hb.last
  · intro k hk
    beta_reduce
    rw [ht _ (by omega), ht _ (by omega), ht _ (by omega), ht _ (by omega)]
    exact hf.near hfl (by rw [f0, f2]; exact hb.lt.le) k hk

/-- Periodic non-uniform B-splines, whatever the rounding: the constructor succeeds, its knots are the break points and
a periodic extension of them up to a rounding error, and `eval_basis` returns values that are not negative, with errors of
at most `9 p 2⁻⁵³` in total and relative errors of at most `8 p 2⁻⁵³` with respect to the B-splines on these knots. -/
theorem C60_periodic_non_uniform (hfl : RoundsAll fl) (p : Nat) (hp : 0 < p) (hp' : p ≤ 2 ^ 20) (breaks : List Rat)
    (hb : WideEnds fl breaks) (hs : breaks.length + 2 * p < 2 ^ 63) :
    ∃ u t, Rounded.mkNubs fl p true breaks = .ok u ∧ u.periodic = true ∧ Monotone t ∧
      (∀ i (h : i < breaks.length), t (p + i) = breaks[i]) ∧
      (∀ k, k ≤ 2 * p → |t (k + (breaks.length - 1)) - (t k + (t (p + (breaks.length - 1)) - t p))| ≤
        1 / 2 ^ 52 * (|t k| + |t (k + (breaks.length - 1))| + (t (p + (breaks.length - 1)) - t p))) ∧
      (∀ k, k < breaks.length + 2 * p → u.knots.coordinate (el1 (BitVec.ofNat 64 k)) = .ok (t k)) ∧
      ∀ x, t p ≤ x → x ≤ t (p + (breaks.length - 1)) → ∀ values : Arr Rat, values.size = p + 1 →
        ∃ m v, m < breaks.length - 1 ∧ t (p + m) ≤ x ∧ x ≤ t (p + m + 1) ∧
          Rounded.evalBasis fl u values x = .ok (v, el1 (BitVec.ofNat 64 m)) ∧
          BasisNear t (t (p + (breaks.length - 1))) p x m v (9 * p / 2 ^ 53) (6 * p / 2 ^ 53) ∧
          BasisRelative t (t (p + (breaks.length - 1))) p x m v (8 * p / 2 ^ 53) := by
  have h2 := hb.two
  obtain ⟨u, t, e, hper, hu, hk, g0, g1, hn⟩ := mkNubs_is hfl hp hs hb
  refine ⟨u, t, e, hper, hu.mono, hk, hn, fun k hk => hu.coord k (by omega), fun x hx1 hx2 values hv => ?_⟩
  obtain ⟨m, v, k1, k2, k3⟩ := nubs_evalBasisR hfl hu hp' g0 g1 x hx1 hx2 values hv
  rw [Nat.add_comm m p] at k2
  exact ⟨m, v, k1, k2.le.1, k2.le.2, k3⟩

/-- Sorted break points with a tiny first cell: the computed knot after the last break point is before it, and the
constructor throws, although the knots in exact arithmetic are sorted. -/
theorem C60_tiny_cell_throws :
    Rounded.mkNubs round53 1 true [-1 / 2 ^ 53, -1 / 2 ^ 53 + 1 / 2 ^ 60, 1] = .throw ∧
    (NUBS.mk' 1 true [(-1 / 2 ^ 53 : Rat), -1 / 2 ^ 53 + 1 / 2 ^ 60, 1] >>= fun _ => .ok ()) = .ok () ∧
    ∀ x ∈ [(-1 / 2 ^ 53 : Rat), -1 / 2 ^ 53 + 1 / 2 ^ 60, 1], round53 x = x := by
  decide +kernel

example : ∃ u, Rounded.mkNubs round53 3 true [round53 (1 / 10), round53 (3 / 10), 1, 2, 2, round53 (31 / 10)] = .ok u ∧ ∃ m v,
    Rounded.evalBasis round53 u (Arr.uninit 4) (round53 (4 / 3)) = .ok (v, el1 (BitVec.ofNat 64 m)) ∧
    ∃ y, v.val 2 = some y ∧ 0 ≤ y := by
  obtain ⟨u, t, e, -, -, k1, -, -, k2⟩ := C60_periodic_non_uniform round53_all 3 (by norm_num) (by norm_num)
    [round53 (1 / 10), round53 (3 / 10), 1, 2, 2, round53 (31 / 10)]
    ⟨⟨by decide, (isSorted_iff _).1 (by decide +kernel), by decide +kernel, by decide +kernel⟩,
      by decide +kernel, by decide +kernel, by decide +kernel, by decide +kernel⟩ (by decide)
  obtain ⟨m, v, -, -, -, e1, e2, -⟩ := k2 (round53 (4 / 3))
    (by rw [show 3 = 3 + 0 by rfl, k1 0 (by decide)]; decide +kernel) (by rw [k1 _ (by decide)]; decide +kernel) (Arr.uninit 4) rfl
  obtain ⟨y, h1, h2, -⟩ := e2.value (r := 2) (by norm_num)
  exact ⟨u, e, m, v, e1, y, h1, h2⟩

end DDC.Props
