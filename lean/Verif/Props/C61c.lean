import Verif.Props.C60b
import Verif.Props.C61b

/-!
# C61, continued: evaluators on periodic non-uniform B-splines with rounding
-/

namespace DDC.Props

open One Rounded Spec Finset

variable {fl : Rat → Rat}

/-- The cell and its assertions for a coordinate that satisfies the assertions. -/
theorem rounded_cell_any (hfl : RoundsAll fl) {u : NUBS Rat} {p n : Nat} {t : Nat → Rat} (h : u.Is p n t)
    (g0 : t p < t (p + 1)) (g1 : t (p + n - 1) < t (p + n)) {x : Rat}
    (hx : Rounded.checkInside fl x (t p) (t (p + n)) = .ok ())
    (h1 : t p - 88 / 2 ^ 53 * (t (p + n) - t p) ≤ x) (h2 : x ≤ t (p + n) + 88 / 2 ^ 53 * (t (p + n) - t p)) :
    ∃ c, Rounded.findCellStart fl u x = .ok (el () c) ∧ p ≤ c ∧ c < p + n ∧
      Rounded.checkCell fl u x (BitVec.ofNat 64 c) = .ok () := by
  have hsm := h.small
  have hcl := h.cells
  by_cases hin : t p ≤ x ∧ x ≤ t (p + n)
  · obtain ⟨c, e, k1, k2, k3⟩ := rounded_cell hfl h g0 g1 hin
    exact ⟨c, e, k1, k2, rounded_checkCell hfl h k1 k2 k3.le⟩
  have hab : t p < t (p + n) := lt_of_lt_of_le g0 (h.mono (by omega))
  have hD : 0 < t (p + n) - t p := sub_pos.2 hab
  have htol := le_fl hfl (q := 1 / 10 ^ 14) (by norm_num)
  have hL := le_fl hfl hD.le
  have hLt : 88 / 2 ^ 53 * (t (p + n) - t p) ≤ fl (t (p + n) - t p) * fl (1 / 10 ^ 14) := by
    refine le_trans ?_ (mul_le_mul hL htol (by norm_num) (le_trans (by positivity) hL))
    norm_num
    linarith
  have hgen : ∀ c, p ≤ c → c < p + n → t c - x ≤ 88 / 2 ^ 53 * (t (p + n) - t p) →
      x - t (c + 1) ≤ 88 / 2 ^ 53 * (t (p + n) - t p) → Rounded.checkCell fl u x (BitVec.ofNat 64 c) = .ok () := by
    intro c hc hc' e1 e2
    have d1 : decide ((BitVec.ofNat 64 p).toNat ≤ (BitVec.ofNat 64 c).toNat) = true := by
      simp only [BitVec.toNat_ofNat, decide_eq_true_eq]; omega
    have d2 : decide ((BitVec.ofNat 64 c).toNat ≤ (BitVec.ofNat 64 (p + (n + 1) - 1)).toNat) = true := by
      simp only [BitVec.toNat_ofNat, decide_eq_true_eq]; omega
    have d3 : decide (fl (t c - x) ≤ fl (fl (t (p + n) - t p) * fl (1 / 10 ^ 14))) = true := by
      simp only [decide_eq_true_eq]; exact hfl.mono _ _ (e1.trans hLt)
    have d4 : decide (fl (x - t (c + 1)) ≤ fl (fl (t (p + n) - t p) * fl (1 / 10 ^ 14))) = true := by
      simp only [decide_eq_true_eq]; exact hfl.mono _ _ (e2.trans hLt)
    simp only [Rounded.checkCell, h.rmin, h.rmax, Res.ok_bind]
    rw [h.breakDom, One.front, back_nat () (by omega), NUBS.uid1_el, Res.ok_bind, Res.ok_bind, NUBS.uid1_el, Res.ok_bind]
    simp only [d1, d2, Res.guardAbort_true, Res.ok_bind]
    rw [NUBS.ofNat_succ, h.knot (by omega), Res.ok_bind, d3, h.knot (by omega), Res.guardAbort_true, Res.ok_bind,
      Res.ok_bind, d4]
    rfl
  have hpos : 0 ≤ 88 / 2 ^ 53 * (t (p + n) - t p) := by positivity
  by_cases hlo : x ≤ t p
  · refine ⟨p, ?_, le_refl _, by omega, hgen p (le_refl _) (by omega) (by linarith) (by linarith)⟩
    simp only [Rounded.findCellStart, h.rmin, h.rmax, Res.ok_bind, hx]
    rw [h.breakDom, One.front, back_nat () (by omega), Res.ok_bind, if_pos hlo]
    rfl
  · have hhi : t (p + n) ≤ x := by
      by_contra hc
      exact hin ⟨(not_le.1 hlo).le, (not_le.1 hc).le⟩
    refine ⟨p + n - 1, ?_, by omega, by omega, hgen _ (by omega) (by omega) (by linarith) ?_⟩
    · simp only [Rounded.findCellStart, h.rmin, h.rmax, Res.ok_bind, hx]
      rw [h.breakDom, One.front, back_nat () (by omega), Res.ok_bind, if_neg hlo, if_pos hhi]
      rw [show Elem.subInt (el () (p + (n + 1) - 1)) 1 = .ok [((), BitVec.ofNat 64 (p + (n + 1) - 1) - 1)]
        from rfl, show (1 : U64) = BitVec.ofNat 64 1 from rfl, ofNat_sub (by omega)]
      rfl
    · rw [show p + n - 1 + 1 = p + n by omega]
      linarith

/-- The sum of products is in bounds. -/
theorem sum1R_ok {p m N : Nat} (hm : m + p < N) (hN : N < 2 ^ 63) (c : Nat → Rat) {v : Arr Rat} (hs : v.size = p + 1) {f : Nat → Rat}
    (hv : ∀ r, r ≤ p → v.val r = some (f r)) : ∃ y, sum1 fl p v (BitVec.ofNat 64 m) (coefsOf N c) = .ok y := by
  obtain ⟨y, e, -⟩ := forLoop_inv (f := fun i y => do
      let c ← coefsOf N c [BitVec.ofNat 64 m + BitVec.ofNat 64 i]
      let w ← v.rd i
      .ok (fl (y + fl (c * w))))
    (fun _ _ => True) (p + 1) 0 0 trivial
    (by
      intro i y _ hi _
      have e1 : BitVec.ofNat 64 m + BitVec.ofNat 64 i = BitVec.ofNat 64 (m + i) := by
        rw [BitVec.ofNat_add]
      rw [e1, coefsOf_ok (by omega) (by omega), Res.ok_bind, Arr.rd_ok (by omega) (hv i (by omega)), Res.ok_bind]
      exact ⟨_, rfl, trivial⟩)
  exact ⟨y, e⟩

/-- Periodic evaluators on non-uniform B-splines: for a coordinate within 16 periods of the domain, the evaluation succeeds
and reads only existing coefficients.  It is made at a coordinate `z` that differs from `x` by a whole number of periods and
at most `2⁻⁴⁷` period, is inside of the domain up to `2⁻⁴⁶` period and is `x` itself when `x` is in the domain.  When `z` is
in the domain, the result is the value of the spline up to `(11 p + 3) 2⁻⁵³` times the largest coefficient.
Missing: the accuracy when the rounding makes `z` fall just outside of the domain (the value is then that of the polynomial of the
cell at the end); coordinates that are farther. -/
theorem C61_periodic_non_uniform_partial (hfl : RoundsAll fl) (p : Nat) (hp : 0 < p) (hp' : p ≤ 2 ^ 20) (breaks : List Rat)
    (hb : WideEnds fl breaks) (hs : breaks.length + 2 * p < 2 ^ 63) {r R : Rat} (hr : r = breaks[0]'(by have := hb.two; omega))
    (hR : R = breaks[breaks.length - 1]'(by have := hb.two; omega)) :
    ∃ u t, Rounded.mkNubs fl p true breaks = .ok u ∧ Monotone t ∧
      (∀ i (h : i < breaks.length), t (p + i) = breaks[i]) ∧
      (∀ k, k < breaks.length + 2 * p → u.knots.coordinate (el1 (BitVec.ofNat 64 k)) = .ok (t k)) ∧
      ∀ x, |x - r| ≤ 16 * fl (R - r) → |r| ≤ 16 * fl (R - r) → ∀ (lower upper : Rat → Coefs Rat → Res Rat) (c : Nat → Rat) (M : Rat),
        (∀ i, i < breaks.length - 1 + p → |c i| ≤ M) →
        ∃ (z : Rat) (m : Int) (y : Rat), |z + m * (R - r) - x| ≤ 1 / 2 ^ 47 * (R - r) ∧
          r - 1 / 2 ^ 46 * (R - r) ≤ z ∧ z ≤ R + 1 / 2 ^ 46 * (R - r) ∧ (r ≤ x → x ≤ R → z = x) ∧
          Rounded.eval fl u lower upper x (coefsOf (breaks.length - 1 + p) c) = .ok y ∧
          (r ≤ z → z ≤ R → |y - ∑ i ∈ range (breaks.length - 1 + p), c i * Spec.bspline t R p i z| ≤
            (11 * p + 3) / 2 ^ 53 * M) := by
  have h2 := hb.two
  obtain ⟨u, t, e, hper, hu, hk, g0, g1, -⟩ := mkNubs_is hfl hp hs hb
  refine ⟨u, t, e, hu.mono, hk, fun k hk => hu.coord k (by omega), fun x hx h0 lower upper c M hc => ?_⟩
  have er : t p = r := by
    have := hk 0 (by omega)
    rw [Nat.add_zero] at this
    rw [this, hr]
  have eR : t (p + (breaks.length - 1)) = R := by rw [hk _ (by omega), hR]
  have hrR : r < R := by rw [hr, hR]; exact hb.lt
  have hD : 0 < R - r := sub_pos.2 hrR
  obtain ⟨m, w1, w2, w3⟩ := wrapOf_near hfl hrR hx h0
  have hin := wrapOf_inside hfl hrR hx h0
  have hev : Rounded.eval fl u lower upper x (coefsOf (breaks.length - 1 + p) c) =
      Rounded.evalNoBc fl u (wrapOf fl r R x) (coefsOf (breaks.length - 1 + p) c) := by
    rw [Rounded.eval, hu.rmin, Res.ok_bind, hu.rmax, Res.ok_bind, hper, if_pos rfl, er, eR]
  obtain ⟨ic, c1, c2, c3, c4⟩ := rounded_cell_any (x := wrapOf fl r R x) hfl hu g0 g1 (by rw [er, eR]; exact hin)
    (by rw [er, eR]; exact w2) (by rw [er, eR]; exact w3)
  have hok : ∃ y, Rounded.evalNoBc fl u (wrapOf fl r R x) (coefsOf (breaks.length - 1 + p) c) = .ok y := by
    obtain ⟨s, e2, hl⟩ := Rounded.triangle (fl := fl) hu (x := wrapOf fl r R x) (s0 := 1) c2 c3 p (le_refl _)
      ((Arr.uninit (p + 1)).set 0 1) (p + 1) (by omega) rfl (by rw [Arr.set_val, if_pos rfl])
    have hd : decide ((Arr.uninit (p + 1) : Arr Rat).size = u.degree + 1) = true := by rw [hu.degree]; exact decide_eq_true rfl
    obtain ⟨y, hy⟩ := sum1R_ok (fl := fl) (p := p) (m := ic - p) (N := breaks.length - 1 + p) (by omega) (by omega) c hl.1 hl.2
    refine ⟨y, ?_⟩
    rw [Rounded.evalNoBc, Rounded.evalBasis, hu.degree]
    rw [hu.degree] at hd
    simp only [hd, Res.guardAbort_true, Res.ok_bind, hu.rmin, hu.rmax, er, eR, hin, c1, NUBS.uid1_el, c4]
    rw [Arr.wr_ok (by show 0 < p + 1; omega), Res.ok_bind, e2, Res.ok_bind, hu.firstBspline c2 c3, Res.ok_bind]
    exact hy
  obtain ⟨y, hy⟩ := hok
  refine ⟨wrapOf fl r R x, m, y, w1.trans (mul_le_mul_of_nonneg_right (by norm_num) hD.le), ?_, ?_, ?_, hev.trans hy, ?_⟩
  · refine le_trans ?_ w2
    have : 88 / 2 ^ 53 * (R - r) ≤ 1 / 2 ^ 46 * (R - r) := mul_le_mul_of_nonneg_right (by norm_num) hD.le
    linarith
  · refine le_trans w3 ?_
    have : 88 / 2 ^ 53 * (R - r) ≤ 1 / 2 ^ 46 * (R - r) := mul_le_mul_of_nonneg_right (by norm_num) hD.le
    linarith
  · intro h1 h2
    rw [wrapOf, if_neg]
    rw [not_or, not_lt, not_lt]; exact ⟨h1, h2⟩
  · intro z1 z2
    obtain ⟨y', k1, k2⟩ := nubs_evalNoBcR hfl hu hp' g0 g1 (wrapOf fl r R x) (by rw [er]; exact z1) (by rw [eR]; exact z2) c M hc
    rw [hy] at k1
    obtain rfl := Res.ok.inj k1
    rw [eR] at k2
    exact k2

/-- Three and a half periods away, with a double break point and the rounding of IEEE 754. -/
example (c : Nat → Rat) (hc : ∀ i, i < 8 → |c i| ≤ 1) : ∃ u,
    Rounded.mkNubs round53 3 true [round53 (1 / 10), round53 (3 / 10), 1, 2, 2, round53 (31 / 10)] = .ok u ∧
    ∃ (z : Rat) (m : Int) (y : Rat), |z + m * (round53 (31 / 10) - round53 (1 / 10)) - 11| ≤ 1 / 2 ^ 45 ∧
      Rounded.eval round53 u (fun _ _ => .ub) (fun _ _ => .ub) 11 (coefsOf 8 c) = .ok y := by
  obtain ⟨u, t, e, -, -, -, k⟩ := C61_periodic_non_uniform_partial round53_all 3 (by norm_num) (by norm_num)
    [round53 (1 / 10), round53 (3 / 10), 1, 2, 2, round53 (31 / 10)]
    ⟨⟨by decide, (isSorted_iff _).1 (by decide +kernel), by decide +kernel, by decide +kernel⟩,
      by decide +kernel, by decide +kernel, by decide +kernel, by decide +kernel⟩ (by decide)
    (r := round53 (1 / 10)) (R := round53 (31 / 10)) rfl rfl
  obtain ⟨z, m, y, k1, -, -, -, k2, -⟩ := k 11 (by decide +kernel) (by decide +kernel) (fun _ _ => .ub) (fun _ _ => .ub) c 1 hc
  exact ⟨u, e, z, m, y, k1.trans (by decide +kernel), k2⟩

end DDC.Props
