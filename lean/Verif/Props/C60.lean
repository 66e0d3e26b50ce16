import Verif.Lemmas.RoundedLoops
import Verif.Props.C58
import Verif.Props.C31

/-!
# C60 — values of B-splines with rounding
-/

namespace DDC.Props

open One Rounded Spec Finset

variable {fl : Rat → Rat}

/-- Specification: the array `v` with the index `m` of its first entry lists the values at `x` of the B-splines of
degree `p` that may be different from zero: none is negative, the errors add up to at most `ε`, the sum is `1` up to
`δ`. -/
structure BasisNear (t : Nat → Rat) (b : Rat) (p : Nat) (x : Rat) (m : Nat) (v : Arr Rat) (ε δ : Rat) : Prop where
  size : v.size = p + 1
  other : ∀ i, i < m ∨ m + p < i → Spec.bspline t b p i x = 0
  near : ∃ f : Nat → Rat, (∀ r, r ≤ p → v.val r = some (f r) ∧ 0 ≤ f r) ∧
    ∑ r ∈ range (p + 1), |f r - Spec.bspline t b p (m + r) x| ≤ ε ∧ |∑ r ∈ range (p + 1), f r - 1| ≤ δ

/-- Every value is accurate. -/
theorem BasisNear.value {t : Nat → Rat} {b : Rat} {p : Nat} {x : Rat} {m : Nat} {v : Arr Rat} {ε δ : Rat}
    (h : BasisNear t b p x m v ε δ) {r : Nat} (hr : r ≤ p) :
    ∃ y, v.val r = some y ∧ 0 ≤ y ∧ |y - Spec.bspline t b p (m + r) x| ≤ ε := by
  obtain ⟨f, h1, h2, -⟩ := h.near
  refine ⟨f r, (h1 r hr).1, (h1 r hr).2, le_trans ?_ h2⟩
  exact single_le_sum (f := fun r => |f r - Spec.bspline t b p (m + r) x|) (fun _ _ => abs_nonneg _)
    (mem_range.2 (by omega))

/-- Specification: every listed value has a relative error of at most `ε`. -/
def BasisRelative (t : Nat → Rat) (b : Rat) (p : Nat) (x : Rat) (m : Nat) (v : Arr Rat) (ε : Rat) : Prop :=
  ∀ r, r ≤ p → ∃ y, v.val r = some y ∧ |y - Spec.bspline t b p (m + r) x| ≤ ε * Spec.bspline t b p (m + r) x

/-! ## Non-uniform B-splines -/

/-- A quotient of rounded terms. -/
theorem quot_near {n n' d d' : Rat} (hn : 0 ≤ n) (hd : 0 < d) (h1 : (1 - 1 / 2 ^ 53) * n ≤ n')
    (h2 : n' ≤ (1 + 1 / 2 ^ 53) * n) (h3 : (1 - 1 / 2 ^ 53) ^ 2 * d ≤ d') (h4 : d' ≤ (1 + 1 / 2 ^ 53) ^ 2 * d) :
    |n' / d' - n / d| ≤ 4 / 2 ^ 53 * (n / d) := by
  have hd' : 0 < d' := lt_of_lt_of_le (mul_pos (by norm_num) hd) h3
  obtain ⟨q, hq⟩ : ∃ q, q = n / d := ⟨_, rfl⟩
  have hn' : n = q * d := by rw [hq]; field_simp
  have hq0 : 0 ≤ q := by rw [hq]; positivity
  rw [← hq, abs_le]
  have m1 := mul_le_mul_of_nonneg_left h3 hq0
  have m2 := mul_le_mul_of_nonneg_left h4 hq0
  rw [show q * ((1 - 1 / 2 ^ 53) ^ 2 * d) = (1 - 1 / 2 ^ 53) ^ 2 * n by rw [hn']; ring] at m1
  rw [show q * ((1 + 1 / 2 ^ 53) ^ 2 * d) = (1 + 1 / 2 ^ 53) ^ 2 * n by rw [hn']; ring] at m2
  have l1 : n' / d' ≤ (1 + 4 / 2 ^ 53) * q := by
    rw [div_le_iff₀ hd']
    norm_num at *
    linarith
  have l2 : (1 - 4 / 2 ^ 53) * q ≤ n' / d' := by
    rw [le_div_iff₀ hd']
    norm_num at *
    linarith
  constructor <;> linarith

theorem rounded_checkCell (hfl : RoundsAll fl) {u : NUBS Rat} {p n : Nat} {t : Nat → Rat} (h : u.Is p n t) {x : Rat}
    {c : Nat} (hc : p ≤ c) (hc' : c < p + n) (hx : t c ≤ x ∧ x ≤ t (c + 1)) :
    Rounded.checkCell fl u x (BitVec.ofNat 64 c) = .ok () := by
  have hsm := h.small
  have ht : (0 : Rat) ≤ fl (fl (t (p + n) - t p) * fl (1 / 10 ^ 14)) :=
    fl_nonneg hfl (mul_nonneg (fl_nonneg hfl (sub_nonneg.2 h.ends)) (fl_nonneg hfl (by norm_num)))
  have d1 : decide ((BitVec.ofNat 64 p).toNat ≤ (BitVec.ofNat 64 c).toNat) = true := by
    simp only [BitVec.toNat_ofNat, decide_eq_true_eq]; omega
  have d2 : decide ((BitVec.ofNat 64 c).toNat ≤ (BitVec.ofNat 64 (p + (n + 1) - 1)).toNat) = true := by
    simp only [BitVec.toNat_ofNat, decide_eq_true_eq]; omega
  have d3 : decide (fl (t c - x) ≤ fl (fl (t (p + n) - t p) * fl (1 / 10 ^ 14))) = true := by
    simp only [decide_eq_true_eq]; exact (fl_nonpos hfl (by linarith [hx.1])).trans ht
  have d4 : decide (fl (x - t (c + 1)) ≤ fl (fl (t (p + n) - t p) * fl (1 / 10 ^ 14))) = true := by
    simp only [decide_eq_true_eq]; exact (fl_nonpos hfl (by linarith [hx.2])).trans ht
  simp only [Rounded.checkCell, h.rmin, h.rmax, Res.ok_bind]
  rw [h.breakDom, One.front, back_nat () (by omega), NUBS.uid1_el, Res.ok_bind, Res.ok_bind, NUBS.uid1_el, Res.ok_bind]
  simp only [d1, d2, Res.guardAbort_true, Res.ok_bind]
  rw [NUBS.ofNat_succ, h.knot (by omega), Res.ok_bind, d3, h.knot (by omega), Res.guardAbort_true, Res.ok_bind,
    Res.ok_bind, d4]
  rfl

theorem rounded_cell (hfl : RoundsAll fl) {u : NUBS Rat} {p n : Nat} {t : Nat → Rat} (h : u.Is p n t)
    (g0 : t p < t (p + 1)) (g1 : t (p + n - 1) < t (p + n)) {x : Rat} (hx : t p ≤ x ∧ x ≤ t (p + n)) :
    ∃ c, Rounded.findCellStart fl u x = .ok (el () c) ∧ p ≤ c ∧ c < p + n ∧ Spec.InCell t (t (p + n)) x c := by
  have hcl := h.cells
  have hab : t p < t (p + n) := lt_of_lt_of_le g0 (h.mono (by omega))
  obtain ⟨c, e, h1⟩ := h.cell g0 g1 hx
  refine ⟨c, ?_, h1⟩
  rw [← e, Rounded.findCellStart, NUBS.findCellStart, h.rmin, h.rmax]
  simp only [Res.ok_bind]
  rw [inside_ok hfl hx.1 hx.2, checkInside_ok hab hx]

/-- The coefficients of the non-uniform scheme are accurate. -/
structure TermsNear (fl : Rat → Rat) (t : Nat → Rat) (x : Rat) (c j r : Nat) : Prop where
  right : 0 ≤ nA fl t x c j r
  left : 0 ≤ nB fl t x c j r
  width : 0 < nD fl t x c j r
  nL : 0 ≤ NUBS.nL t x c j r
  nR : 0 ≤ NUBS.nR t x c j r
  one : NUBS.nL t x c j r + NUBS.nR t x c j r = 1
  sum : |(nA fl t x c j r + nB fl t x c j r) / nD fl t x c j r - 1| ≤ 2 / 2 ^ 53
  errorL : |nB fl t x c j r / nD fl t x c j r - NUBS.nL t x c j r| ≤ 4 / 2 ^ 53 * NUBS.nL t x c j r
  errorR : |nA fl t x c j r / nD fl t x c j r - NUBS.nR t x c j r| ≤ 4 / 2 ^ 53 * NUBS.nR t x c j r

theorem nubs_terms (hfl : RoundsAll fl) {t : Nat → Rat} (ht : Monotone t) {x : Rat} {c p : Nat}
    (hpc : p ≤ c) (hx1 : t c ≤ x) (hx2 : x ≤ t (c + 1)) (hc : t c < t (c + 1)) {j r : Nat} (hj : j < p) (hr : r ≤ j) :
    TermsNear fl t x c j r := by
  have hr0 : 0 ≤ t (c + r + 1) - x := by
    have := ht (show c + 1 ≤ c + r + 1 by omega); linarith
  have hl0 : 0 ≤ x - t (c - j + r) := by
    have := ht (show c - j + r ≤ c by omega); linarith
  have hw : 0 < t (c + r + 1) - t (c - j + r) := by
    have k1 := ht (show c - j + r ≤ c by omega)
    have k2 := ht (show c + 1 ≤ c + r + 1 by omega)
    linarith
  have hA : 0 ≤ nA fl t x c j r := fl_nonneg hfl hr0
  have hB : 0 ≤ nB fl t x c j r := fl_nonneg hfl hl0
  have hAB : (1 - 1 / 2 ^ 53) * (t (c + r + 1) - t (c - j + r)) ≤ nA fl t x c j r + nB fl t x c j r ∧
      nA fl t x c j r + nB fl t x c j r ≤ (1 + 1 / 2 ^ 53) * (t (c + r + 1) - t (c - j + r)) := by
    have k1 := fl_le hfl hr0
    have k2 := le_fl hfl hr0
    have k3 := fl_le hfl hl0
    have k4 := le_fl hfl hl0
    rw [nA, nB]
    constructor <;> linarith
  have k0 := add_nonneg hA hB
  have k1 := fl_le hfl k0
  have k2 := le_fl hfl k0
  have hD : (1 - 1 / 2 ^ 53) ^ 2 * (t (c + r + 1) - t (c - j + r)) ≤ nD fl t x c j r ∧
      nD fl t x c j r ≤ (1 + 1 / 2 ^ 53) ^ 2 * (t (c + r + 1) - t (c - j + r)) := by
    rw [nD]
    norm_num at *
    constructor <;> linarith
  have hDp : 0 < nD fl t x c j r := lt_of_lt_of_le (mul_pos (by norm_num) hw) hD.1
  refine ⟨hA, hB, hDp, div_nonneg hl0 hw.le, div_nonneg hr0 hw.le, ?_, ?_, ?_, ?_⟩
  · have := hw.ne'
    rw [NUBS.nL, NUBS.nR]; field_simp; ring
  · rw [nD] at hDp ⊢
    rw [abs_le, neg_le_sub_iff_le_add, sub_le_iff_le_add, div_le_iff₀ hDp, ← sub_le_iff_le_add, le_div_iff₀ hDp]
    norm_num at *
    constructor <;> linarith
  · exact quot_near hl0 hw (le_fl hfl hl0) (fl_le hfl hl0) hD.1 hD.2
  · exact quot_near hr0 hw (le_fl hfl hr0) (fl_le hfl hr0) hD.1 hD.2

/-- The computed triangle of the non-uniform scheme. -/
theorem nubs_lines (hfl : RoundsAll fl) {t : Nat → Rat} (ht : Monotone t) {x : Rat} {c p : Nat} (hp : p ≤ 2 ^ 20)
    (hpc : p ≤ c) (hx1 : t c ≤ x) (hx2 : x ≤ t (c + 1)) (hc : t c < t (c + 1)) :
    (∀ r, r ≤ p → 0 ≤ triR fl (nA fl t x c) (nB fl t x c) (nD fl t x c) 1 p r) ∧
      |∑ r ∈ range (p + 1), triR fl (nA fl t x c) (nB fl t x c) (nD fl t x c) 1 p r - 1| ≤ 6 * p / 2 ^ 53 ∧
      ∑ r ∈ range (p + 1), |triR fl (nA fl t x c) (nB fl t x c) (nD fl t x c) 1 p r -
        tri (NUBS.nL t x c) (NUBS.nR t x c) 1 p r| ≤ 9 * p / 2 ^ 53 := by
  have h := fun j r (h1 : j < p) (h2 : r ≤ j) => nubs_terms hfl ht hpc hx1 hx2 hc h1 h2
  have key := triR_lines hfl (A := nA fl t x c) (B := nB fl t x c) (D := nD fl t x c) (L := NUBS.nL t x c)
    (R := NUBS.nR t x c) (η := fun _ => 4 / 2 ^ 53) hp (fun j r h1 h2 => (h j r h1 h2).right)
    (fun j r h1 h2 => (h j r h1 h2).left) (fun j r h1 h2 => (h j r h1 h2).width) (fun j r h1 h2 => (h j r h1 h2).nL)
    (fun j r h1 h2 => (h j r h1 h2).nR) (fun j r h1 h2 => (h j r h1 h2).one) (fun j r h1 h2 => (h j r h1 h2).sum)
    (fun j r h1 h2 => by
      have := add_le_add (h j r h1 h2).errorL (h j r h1 h2).errorR
      rw [← mul_add, (h j r h1 h2).one, mul_one] at this
      exact this)
    (fun j _ => by norm_num) p (le_refl _)
  refine ⟨key.1, key.2.1, key.2.2.trans ?_⟩
  rw [sum_const, card_range, nsmul_eq_mul]
  have : (0 : Rat) ≤ p := Nat.cast_nonneg p
  norm_num
  linarith

/-- Its relative errors. -/
theorem nubs_rel (hfl : RoundsAll fl) {t : Nat → Rat} (ht : Monotone t) {x : Rat} {c p q : Nat} (hp : p ≤ 2 ^ 20)
    (hpc : p ≤ c) (hx1 : t c ≤ x) (hx2 : x ≤ t (c + 1)) (hc : t c < t (c + 1)) (hq : q ≤ p) {r : Nat} (hr : r ≤ q) :
    0 ≤ triR fl (nA fl t x c) (nB fl t x c) (nD fl t x c) 1 q r ∧ 0 ≤ tri (NUBS.nL t x c) (NUBS.nR t x c) 1 q r ∧
      |triR fl (nA fl t x c) (nB fl t x c) (nD fl t x c) 1 q r - tri (NUBS.nL t x c) (NUBS.nR t x c) 1 q r| ≤
        8 * q / 2 ^ 53 * tri (NUBS.nL t x c) (NUBS.nR t x c) 1 q r := by
  have h := fun j r (h1 : j < p) (h2 : r ≤ j) => nubs_terms hfl ht hpc hx1 hx2 hc h1 h2
  exact triR_rel hfl (A := nA fl t x c) (B := nB fl t x c) (D := nD fl t x c) (L := NUBS.nL t x c)
    (R := NUBS.nR t x c) hp (fun j r h1 h2 => (h j r h1 h2).right)
    (fun j r h1 h2 => (h j r h1 h2).left) (fun j r h1 h2 => (h j r h1 h2).width) (fun j r h1 h2 => (h j r h1 h2).nL)
    (fun j r h1 h2 => (h j r h1 h2).nR) (fun j r h1 h2 => (h j r h1 h2).errorL) (fun j r h1 h2 => (h j r h1 h2).errorR)
    q hq r hr

/-- `eval_basis` with rounding on B-splines with the knots `t`. -/
theorem nubs_evalBasisR (hfl : RoundsAll fl) {u : NUBS Rat} {p n : Nat} {t : Nat → Rat} (hu : u.Is p n t)
    (hp : p ≤ 2 ^ 20) (g0 : t p < t (p + 1))
    (g1 : t (p + n - 1) < t (p + n)) (x : Rat) (hx1 : t p ≤ x) (hx2 : x ≤ t (p + n)) (values : Arr Rat)
    (hv : values.size = p + 1) :
    ∃ m v, m < n ∧ Spec.InCell t (t (p + n)) x (m + p) ∧
      Rounded.evalBasis fl u values x = .ok (v, el1 (BitVec.ofNat 64 m)) ∧
      BasisNear t (t (p + n)) p x m v (9 * p / 2 ^ 53) (6 * p / 2 ^ 53) ∧
      BasisRelative t (t (p + n)) p x m v (8 * p / 2 ^ 53) := by
  have hcl := hu.cells
  obtain ⟨c, e1, h3, h4, h5⟩ := rounded_cell hfl hu g0 g1 ⟨hx1, hx2⟩
  obtain ⟨s, e2, hl⟩ := Rounded.triangle (fl := fl) hu (x := x) (s0 := 1) h3 h4 p (le_refl _) (values.set 0 1) (p + 1)
    (by omega) (by simpa using hv) (by rw [Arr.set_val, if_pos rfl])
  have hx := h5.le
  have hd : decide (values.size = u.degree + 1) = true := by rw [hu.degree]; exact decide_eq_true hv
  have hcp : p + (c - p) = c := by omega
  have h5' : Spec.InCell t (t (p + n)) x (c - p + p) := by rw [Nat.sub_add_cancel h3]; exact h5
  have hcc : t c < t (c + 1) := h5.lt
  obtain ⟨k1, k2, k3⟩ := nubs_lines hfl hu.mono hp h3 hx.1 hx.2 hcc
  have ht : ∀ r, r ≤ p → tri (NUBS.nL t x c) (NUBS.nR t x c) 1 p r = Spec.bspline t (t (p + n)) p (c - p + r) x := by
    intro r hr
    rw [tri_bspline (L := NUBS.nL t x c) (R := NUBS.nR t x c) hu.mono h5 1 p h3
      (fun j r _ _ => rfl) (fun j r _ _ => rfl) p r (le_refl _) hr, one_mul]
  refine ⟨c - p, s.values, by omega, h5', ?_, ?_, ?_⟩
  · rw [Rounded.evalBasis, hd, Res.guardAbort_true, Res.ok_bind, hu.rmin, Res.ok_bind, hu.rmax, Res.ok_bind,
      inside_ok hfl hx1 hx2, Res.ok_bind, e1, Res.ok_bind, NUBS.uid1_el, Res.ok_bind,
      rounded_checkCell hfl hu h3 h4 hx, Res.ok_bind, Arr.wr_ok (by omega), Res.ok_bind, hu.degree, e2, Res.ok_bind,
      hu.firstBspline h3 h4]
    rfl
  · refine ⟨hl.1, fun i hi => ?_, _, fun r hr => ⟨hl.2 r hr, k1 r hr⟩, le_of_eq_of_le (sum_congr rfl fun r hr => ?_) k3, k2⟩
    · rw [Spec.bspline_eq_piece hu.mono h5', Spec.piece_zero _ _ _ _ (by omega)]; simp
    · rw [ht r (by rw [mem_range] at hr; omega)]
  · intro r hr
    have := (nubs_rel hfl hu.mono hp h3 hx.1 hx.2 hcc (le_refl p) hr).2.2
    rw [ht r hr] at this
    exact ⟨_, hl.2 r hr, this⟩

/-- Non-uniform B-splines, whatever the rounding and the spacing of the break points: `eval_basis` returns values
that are not negative, with errors of at most `9 p 2⁻⁵³` in total and relative errors of at most `8 p 2⁻⁵³`. -/
theorem C60_non_uniform (hfl : RoundsAll fl) (p : Nat) (hp : 0 < p) (hp' : p ≤ 2 ^ 20) (breaks : List Rat)
    (hb : GoodBreaks breaks) (hs : breaks.length + 2 * p < 2 ^ 63) :
    ∃ u t, NUBS.mk' p false breaks = .ok u ∧ Monotone t ∧
      (∀ i (h : i < breaks.length), t (p + i) = breaks[i]) ∧
      (∀ k, k < breaks.length + 2 * p → u.knots.coordinate (el1 (BitVec.ofNat 64 k)) = .ok (t k)) ∧
      ∀ x, t p ≤ x → x ≤ t (p + (breaks.length - 1)) → ∀ values : Arr Rat, values.size = p + 1 →
        ∃ m v, m < breaks.length - 1 ∧ t (p + m) ≤ x ∧ x ≤ t (p + m + 1) ∧
          Rounded.evalBasis fl u values x = .ok (v, el1 (BitVec.ofNat 64 m)) ∧
          BasisNear t (t (p + (breaks.length - 1))) p x m v (9 * p / 2 ^ 53) (6 * p / 2 ^ 53) ∧
          BasisRelative t (t (p + (breaks.length - 1))) p x m v (8 * p / 2 ^ 53) := by
  have h2 := hb.two
  obtain ⟨u, t, e, -, hu, hk⟩ := NUBS.mk'_is hp false hb.two hs hb.sorted hb.lt
  obtain ⟨g0, g1⟩ := goodEnds hb hk
  refine ⟨u, t, e, hu.mono, hk.inner, fun k hk => hu.coord k (by omega), fun x hx1 hx2 values hv => ?_⟩
  obtain ⟨m, v, k1, k2, k3⟩ := nubs_evalBasisR hfl hu hp' g0 g1 x hx1 hx2 values hv
  rw [Nat.add_comm m p] at k2
  exact ⟨m, v, k1, k2.le.1, k2.le.2, k3⟩


/-- A coordinate below the first break point by less than the tolerance is accepted and not clamped: a value is negative. -/
theorem C60_below : (do
    let u ← NUBS.mk' 2 false [(0 : Rat), 1, 3, 4]
    let s ← Rounded.evalBasis round53 u (Arr.uninit 3) (-1 / 2 ^ 50)
    s.1.rd 1) = .ok (-2251799813685249 / 2 ^ 100) := by
  decide +kernel

example : ∃ u, NUBS.mk' 3 false [(0 : Rat), 1, 3, 4, 6, 6, 7] = .ok u ∧ ∃ m v,
    Rounded.evalBasis round53 u (Arr.uninit 4) (round53 (16 / 3)) = .ok (v, el1 (BitVec.ofNat 64 m)) ∧
    ∃ y, v.val 2 = some y ∧ 0 ≤ y := by
  obtain ⟨u, t, e, -, k1, -, k2⟩ := C60_non_uniform round53_all 3 (by norm_num) (by norm_num)
    [(0 : Rat), 1, 3, 4, 6, 6, 7] ⟨by decide, (isSorted_iff _).1 (by decide +kernel), by decide +kernel, by decide +kernel⟩ (by decide)
  obtain ⟨m, v, -, -, -, e1, e2, -⟩ := k2 (round53 (16 / 3))
    (by rw [show 3 = 3 + 0 by rfl, k1 0 (by decide)]; decide +kernel) (by rw [k1 _ (by decide)]; decide +kernel) (Arr.uninit 4) rfl
  obtain ⟨y, h1, h2, -⟩ := e2.value (r := 2) (by norm_num)
  exact ⟨u, e, m, v, e1, y, h1, h2⟩

/-! ## Uniform B-splines -/

/-- The values of `xx` stay between consecutive integers and close to the exact ones. -/
theorem xxR_bounds (hfl : RoundsAll fl) {o : Rat} (h0 : 0 ≤ o) (h1 : o ≤ 1) (r : Nat) (hr : r ≤ 2 ^ 20) :
    (r : Rat) - 1 ≤ xxR fl o r ∧ xxR fl o r ≤ r ∧ |xxR fl o r - (r - o)| ≤ 1 / 2 ^ 53 * (r * (r + 1) / 2) := by
  induction r with
  | zero => rw [xxR]; refine ⟨by simpa using h1, by simpa using h0, by simp⟩
  | succ r ih =>
    obtain ⟨k1, k2, k3⟩ := ih (by omega)
    have e1 := hfl.exact (r : Int) (by rw [abs_of_nonneg (by omega)]; omega)
    have e2 := hfl.exact ((r : Int) + 1) (by rw [abs_of_nonneg (by omega)]; omega)
    push_cast at e1 e2 ⊢
    have m1 := hfl.mono (r : Rat) (xxR fl o r + 1) (by linarith)
    have m2 := hfl.mono (xxR fl o r + 1) ((r : Rat) + 1) (by linarith)
    have hr0 : (0 : Rat) ≤ r := Nat.cast_nonneg r
    have m3 := hfl.error (xxR fl o r + 1)
    rw [abs_of_nonneg (show 0 ≤ xxR fl o r + 1 by linarith)] at m3
    rw [xxR]
    refine ⟨by linarith, by linarith, ?_⟩
    calc |fl (xxR fl o r + 1) - (r + 1 - o)| = |(fl (xxR fl o r + 1) - (xxR fl o r + 1)) + (xxR fl o r - (r - o))| := by
          congr 1; ring
      _ ≤ |fl (xxR fl o r + 1) - (xxR fl o r + 1)| + |xxR fl o r - (r - o)| := abs_add_le _ _
      _ ≤ (xxR fl o r + 1) / 2 ^ 53 + 1 / 2 ^ 53 * (r * (r + 1) / 2) := add_le_add m3 k3
      _ ≤ (r + 1) / 2 ^ 53 + 1 / 2 ^ 53 * (r * (r + 1) / 2) := by gcongr
      _ = _ := by ring

/-- The coefficients of the uniform scheme are weights. -/
theorem uLR {o : Rat} (h0 : 0 ≤ o) (h1 : o ≤ 1) {j r : Nat} (hr : r ≤ j) :
    0 ≤ uL o j r ∧ 0 ≤ uR o j r ∧ uL o j r + uR o j r = 1 := by
  have hj : (0 : Rat) < ((j + 1 : Nat) : Rat) := by positivity
  have hr' : (r : Rat) ≤ j := by exact_mod_cast hr
  have hr0 : (0 : Rat) ≤ r := Nat.cast_nonneg r
  refine ⟨div_nonneg ?_ hj.le, div_nonneg ?_ hj.le, ?_⟩
  · push_cast; linarith
  · push_cast; linarith
  · rw [uL, uR, ← add_div, sub_add_cancel, div_self hj.ne']

theorem sum_id (p : Nat) : ∑ i ∈ range p, ((i : Rat) + 7) = p * (p + 13) / 2 := by
  induction p with
  | zero => simp
  | succ p ih => rw [sum_range_succ, ih]; push_cast; ring

/-- The computed triangle of the uniform scheme. -/
theorem ubs_lines_from (hfl : RoundsAll fl) {o : Rat} (h0 : 0 ≤ o) (h1 : o ≤ 1) {p : Nat} (hp : p < 2 ^ 20) {s0 : Rat}
    (hs : 0 ≤ s0) :
    (∀ r, r ≤ p → 0 ≤ triR fl (uA fl o) (uB fl o) uD s0 p r) ∧
      |∑ r ∈ range (p + 1), triR fl (uA fl o) (uB fl o) uD s0 p r - s0| ≤ 6 * p / 2 ^ 53 * s0 ∧
      ∑ r ∈ range (p + 1), |triR fl (uA fl o) (uB fl o) uD s0 p r - tri (uL o) (uR o) s0 p r| ≤
        p * (p + 13) / 2 ^ 53 * s0 := by
  have hD : ∀ j, (0 : Rat) < ((j + 1 : Nat) : Rat) := fun j => by positivity
  have hx : ∀ j r, j < p → r ≤ j → (r : Rat) ≤ xxR fl o (r + 1) ∧ xxR fl o (r + 1) ≤ ((j + 1 : Nat) : Rat) ∧
      |xxR fl o (r + 1) - (-o + ((r + 1 : Nat) : Rat))| ≤ 1 / 2 ^ 53 * (((j : Rat) + 1) * (j + 2) / 2) := by
    intro j r hj hr
    obtain ⟨k1, k2, k3⟩ := xxR_bounds hfl h0 h1 (r + 1) (by omega)
    have hr' : (r : Rat) ≤ j := by exact_mod_cast hr
    have hr0 : (0 : Rat) ≤ r := Nat.cast_nonneg r
    push_cast at k1 k2 k3 ⊢
    refine ⟨by linarith, by linarith, ?_⟩
    rw [show -o + ((r : Rat) + 1) = r + 1 - o by ring]
    refine k3.trans (mul_le_mul_of_nonneg_left ?_ (by norm_num))
    refine div_le_div_of_nonneg_right (mul_le_mul (by linarith) (by linarith) (by linarith) (by linarith)) (by norm_num)
  have hB : ∀ j r, j < p → r ≤ j → 0 ≤ uB fl o j r ∧
      |uB fl o j r - (((j + 1 : Nat) : Rat) - xxR fl o (r + 1))| ≤ 1 / 2 ^ 53 * ((j + 1 : Nat) : Rat) := by
    intro j r hj hr
    obtain ⟨k1, k2, k3⟩ := hx j r hj hr
    have hr0 : (0 : Rat) ≤ r := Nat.cast_nonneg r
    refine ⟨fl_nonneg hfl (by linarith), (hfl.error _).trans ?_⟩
    rw [abs_of_nonneg (by linarith)]
    have : (((j + 1 : Nat) : Rat) - xxR fl o (r + 1)) / 2 ^ 53 ≤ ((j + 1 : Nat) : Rat) / 2 ^ 53 := by
      gcongr; linarith
    linarith
  have key := triR_lines_from hfl (A := uA fl o) (B := uB fl o) (D := uD) (L := uL o) (R := uR o)
    (η := fun j => 1 / 2 ^ 53 * ((j : Rat) + 3)) hp.le hs
    (fun j r hj hr => by
      have hr0 : (0 : Rat) ≤ r := Nat.cast_nonneg r
      exact hr0.trans (hx j r hj hr).1)
    (fun j r hj hr => (hB j r hj hr).1) (fun j r _ _ => hD j)
    (fun j r _ hr => (uLR h0 h1 hr).1) (fun j r _ hr => (uLR h0 h1 hr).2.1) (fun j r _ hr => (uLR h0 h1 hr).2.2)
    (fun j r hj hr => by
      obtain ⟨-, k2⟩ := hB j r hj hr
      rw [show (uA fl o j r + uB fl o j r) / uD j r - 1 =
        (uB fl o j r - (((j + 1 : Nat) : Rat) - xxR fl o (r + 1))) / ((j + 1 : Nat) : Rat) by
          rw [uA, uD]; field_simp [(hD j).ne']; ring]
      rw [abs_div, abs_of_pos (hD j), div_le_iff₀ (hD j)]
      have := (hD j).le
      linarith)
    (fun j r hj hr => by
      obtain ⟨-, k2⟩ := hB j r hj hr
      obtain ⟨-, -, k3⟩ := hx j r hj hr
      have e1 : |uA fl o j r / uD j r - uR o j r| ≤ 1 / 2 ^ 53 * (((j : Rat) + 2) / 2) := by
        rw [uA, uD, uR, ← sub_div, abs_div, abs_of_pos (hD j), div_le_iff₀ (hD j)]
        push_cast at k3 ⊢
        linarith
      have e2 : |uB fl o j r / uD j r - uL o j r| ≤ 1 / 2 ^ 53 * (((j : Rat) + 2) / 2) + 1 / 2 ^ 53 := by
        rw [uD, uL, ← sub_div, abs_div, abs_of_pos (hD j), div_le_iff₀ (hD j)]
        have h := abs_sub_le (uB fl o j r) (((j + 1 : Nat) : Rat) - xxR fl o (r + 1))
          (((j + 1 : Nat) : Rat) - (-o + ((r + 1 : Nat) : Rat)))
        have h' : |((j + 1 : Nat) : Rat) - xxR fl o (r + 1) - (((j + 1 : Nat) : Rat) - (-o + ((r + 1 : Nat) : Rat)))| =
            |xxR fl o (r + 1) - (-o + ((r + 1 : Nat) : Rat))| := by
          rw [← abs_neg]; congr 1; ring
        rw [h'] at h
        refine (h.trans (add_le_add k2 k3)).trans (le_of_eq ?_)
        push_cast
        ring
      have := add_le_add e2 e1
      refine this.trans (le_of_eq ?_)
      ring)
    (fun j hj => by
      have h : (j : Rat) ≤ 2 ^ 20 := by exact_mod_cast (by omega : j ≤ 2 ^ 20)
      rw [one_div_mul_eq_div, div_le_div_iff₀ (by norm_num) (by norm_num)]
      linarith) p (le_refl _)
  refine ⟨key.1, key.2.1, key.2.2.trans (mul_le_mul_of_nonneg_right ?_ hs)⟩
  have e : ∀ i ∈ range p, (1 / 2 ^ 53 * ((i : Rat) + 3) + 4 / 2 ^ 53) = 1 / 2 ^ 53 * ((i : Rat) + 7) := fun i _ => by ring
  rw [sum_congr rfl e, ← mul_sum, sum_id]
  have : (0 : Rat) ≤ p := Nat.cast_nonneg p
  have h2 : (0 : Rat) ≤ p * (p + 13) := by positivity
  norm_num
  linarith

theorem ubs_lines (hfl : RoundsAll fl) {o : Rat} (h0 : 0 ≤ o) (h1 : o ≤ 1) {p : Nat} (hp : p < 2 ^ 20) :
    (∀ r, r ≤ p → 0 ≤ triR fl (uA fl o) (uB fl o) uD 1 p r) ∧
      |∑ r ∈ range (p + 1), triR fl (uA fl o) (uB fl o) uD 1 p r - 1| ≤ 6 * p / 2 ^ 53 ∧
      ∑ r ∈ range (p + 1), |triR fl (uA fl o) (uB fl o) uD 1 p r - tri (uL o) (uR o) 1 p r| ≤ p * (p + 13) / 2 ^ 53 := by
  have := ubs_lines_from hfl h0 h1 hp zero_le_one
  rwa [mul_one, mul_one] at this

/-- Knots at the integers, `p` of them negative. -/
def intKnot (p k : Nat) : Rat := k - p

/-- Values on the cell `c` at the offset `o`, for all the B-splines. -/
def cellValue (p c : Nat) (o : Rat) (i : Nat) : Rat :=
  if c ≤ i ∧ i ≤ c + p then tri (uL o) (uR o) 1 p (i - c) else 0

/-- A sum of terms that vanish outside of a cell. -/
theorem cell_sum {p c N : Nat} (hN : c + p < N) {f : Nat → Rat} (hf : ∀ i, ¬ (c ≤ i ∧ i ≤ c + p) → f i = 0) :
    ∑ i ∈ range N, f i = ∑ r ∈ range (p + 1), f (c + r) := by
  obtain ⟨d, rfl⟩ : ∃ d, N = c + (p + 1) + d := ⟨N - (c + (p + 1)), by omega⟩
  rw [sum_range_add, sum_range_add, sum_eq_zero (s := range c) (fun i hi => hf i (by rw [mem_range] at hi; omega)),
    sum_eq_zero (s := range d) (fun i hi => hf _ (by omega)), zero_add, add_zero]

theorem intKnot_mono (p : Nat) : Monotone (intKnot p) := fun i j h => by
  have : (i : Rat) ≤ j := by exact_mod_cast h
  rw [intKnot, intKnot]; linarith

/-- The B-splines on the integers. -/
theorem int_bspline {p c : Nat} {b y : Rat} (h1 : (c : Rat) ≤ y) (h2 : y < c + 1) (hb : y < b) (i : Nat) :
    Spec.bspline (intKnot p) b p i y = cellValue p c (y - c) i := by
  have hc : Spec.InCell (intKnot p) b y (p + c) := by
    rw [Spec.InCell, if_pos hb, intKnot, intKnot]
    push_cast
    constructor <;> linarith
  have hc' : Spec.InCell (intKnot p) b y (c + p) := by rw [Nat.add_comm]; exact hc
  rw [cellValue]
  split
  · rename_i h
    rw [tri_bspline (L := uL (y - c)) (R := uR (y - c)) (intKnot_mono p) hc 1 p (by omega) ?_ ?_ p (i - c) (le_refl _)
      (by omega), one_mul]
    · congr 1; omega
    · intro j r hj hr
      rw [uL, intKnot, intKnot, Nat.cast_add (p + c - j) r, Nat.cast_sub (by omega)]
      push_cast
      have : (j : Rat) + 1 ≠ 0 := by positivity
      rw [show (p : Rat) + c + r + 1 - p - (p + c - j + r - p) = j + 1 by ring]
      congr 1; ring
    · intro j r hj hr
      rw [uR, intKnot, intKnot, Nat.cast_add (p + c - j) r, Nat.cast_sub (by omega)]
      push_cast
      rw [show (p : Rat) + c + r + 1 - p - (p + c - j + r - p) = j + 1 by ring]
      congr 1; ring
  · rename_i h
    rw [Spec.bspline_eq_piece (intKnot_mono p) hc', Spec.piece_zero _ _ _ _ (by omega)]; simp

/-- The values are continuous at the knots. -/
theorem tri_knot (j : Nat) : tri (uL (1 : Rat)) (uR 1) 1 (j + 1) 0 = 0 ∧ tri (uL (0 : Rat)) (uR 0) 1 (j + 1) (j + 1) = 0 ∧
    ∀ r, r ≤ j → tri (uL (1 : Rat)) (uR 1) 1 (j + 1) (r + 1) = tri (uL 0) (uR 0) 1 (j + 1) r := by
  induction j with
  | zero =>
    refine ⟨?_, ?_, fun r hr => ?_⟩
    · norm_num [tri, uR]
    · norm_num [tri, uL]
    · obtain rfl : r = 0 := by omega
      norm_num [tri, uL, uR]
  | succ j ih =>
    obtain ⟨k1, k2, k3⟩ := ih
    refine ⟨?_, ?_, fun r hr => ?_⟩
    · rw [tri, if_pos rfl, if_neg (by omega), k1]; ring
    · rw [tri, if_neg (by omega), if_pos rfl, Nat.add_sub_cancel, k2]; ring
    · have hL : ∀ r, uL (1 : Rat) (j + 1) (r + 1) = uL 0 (j + 1) r := fun r => by rw [uL, uL]; push_cast; ring
      have hR : ∀ r, uR (1 : Rat) (j + 1) (r + 1) = uR 0 (j + 1) r := fun r => by rw [uR, uR]; push_cast; ring
      have e1 : tri (uL (1 : Rat)) (uR 1) 1 (j + 1 + 1) (r + 1) = uL 1 (j + 1) r * tri (uL 1) (uR 1) 1 (j + 1) r +
          (if r = j + 1 then 0 else uR 1 (j + 1) (r + 1) * tri (uL 1) (uR 1) 1 (j + 1) (r + 1)) := by
        rw [tri.eq_2, if_neg (Nat.succ_ne_zero r), Nat.add_sub_cancel]
        congr 1
        by_cases c : r = j + 1
        · rw [if_pos c, if_pos (by omega)]
        · rw [if_neg c, if_neg (by omega)]
      rw [e1, tri.eq_2 (uL 0), if_neg (show r ≠ j + 1 + 1 by omega)]
      congr 1
      · cases r with
        | zero => rw [k1, if_pos rfl, mul_zero]
        | succ r => rw [if_neg (Nat.succ_ne_zero r), Nat.add_sub_cancel, hL, k3 r (by omega)]
      · by_cases c : r = j + 1
        · rw [if_pos c, c, k2, mul_zero]
        · rw [if_neg c, hR, k3 r (by omega)]

theorem cellValue_knot {p : Nat} (hp : 0 < p) (c i : Nat) : cellValue p c 1 i = cellValue p (c + 1) 0 i := by
  obtain ⟨q, rfl⟩ : ∃ q, p = q + 1 := ⟨p - 1, by omega⟩
  obtain ⟨k1, k2, k3⟩ := tri_knot q
  rw [cellValue, cellValue]
  by_cases h1 : i < c ∨ c + 1 + (q + 1) < i
  · rw [if_neg (by omega), if_neg (by omega)]
  by_cases h2 : i = c
  · rw [if_pos (by omega), if_neg (by omega), h2, Nat.sub_self, k1]
  by_cases h3 : i = c + 1 + (q + 1)
  · rw [if_neg (by omega), if_pos (by omega), h3, show c + 1 + (q + 1) - (c + 1) = q + 1 by omega, k2]
  rw [if_pos (by omega), if_pos (by omega), ← k3 (i - (c + 1)) (by omega)]
  congr 1; omega

/-- The values in one cell change little. -/
theorem cellValue_lip {p c N : Nat} (hN : c + p < N) {o o' : Rat} (h0 : 0 ≤ o) (h1 : o ≤ 1) (h0' : 0 ≤ o') (h1' : o' ≤ 1) :
    ∑ i ∈ range N, |cellValue p c o i - cellValue p c o' i| ≤ 2 * p * |o - o'| := by
  rw [cell_sum hN (c := c) (f := fun i => |cellValue p c o i - cellValue p c o' i|)
    (fun i hi => by simp only [cellValue, if_neg hi, sub_self, abs_zero])]
  have key := (tri_lines (L := uL o') (R := uR o') (L' := uL o) (R' := uR o) (p := p) (η := fun _ => 2 * |o - o'|)
    (fun j r _ hr => (uLR h0' h1' hr).1) (fun j r _ hr => (uLR h0' h1' hr).2.1) (fun j r _ hr => (uLR h0' h1' hr).2.2)
    (fun j r _ hr => (uLR h0 h1 hr).1) (fun j r _ hr => (uLR h0 h1 hr).2.1) (fun j r _ hr => (uLR h0 h1 hr).2.2)
    (fun j r _ hr => by
      have hj : (1 : Rat) ≤ ((j + 1 : Nat) : Rat) := by exact_mod_cast Nat.succ_le_succ (Nat.zero_le j)
      have hj' : (0 : Rat) < ((j + 1 : Nat) : Rat) := by linarith
      have e1 : |uL o j r - uL o' j r| ≤ |o - o'| := by
        rw [uL, uL, ← sub_div, abs_div, abs_of_pos hj']
        refine (div_le_self (abs_nonneg _) hj).trans (le_of_eq ?_)
        congr 1; ring
      have e2 : |uR o j r - uR o' j r| ≤ |o - o'| := by
        rw [uR, uR, ← sub_div, abs_div, abs_of_pos hj']
        refine (div_le_self (abs_nonneg _) hj).trans (le_of_eq ?_)
        rw [← abs_neg]
        congr 1; ring
      linarith) p (le_refl _)).2.2
  rw [sum_const, card_range, nsmul_eq_mul] at key
  refine (le_of_eq (sum_congr rfl fun r hr => ?_)).trans (key.trans (le_of_eq (by ring)))
  rw [mem_range] at hr
  rw [cellValue, cellValue, if_pos (by omega), if_pos (by omega), Nat.add_sub_cancel_left]

/-- The values change little from one cell to the next. -/
theorem cellValue_next {p c N : Nat} (hp : 0 < p) (hN : c + 1 + p < N) {o o' : Rat} (h0 : 0 ≤ o) (h1 : o ≤ 1) (h0' : 0 ≤ o')
    (h1' : o' ≤ 1) : ∑ i ∈ range N, |cellValue p c o i - cellValue p (c + 1) o' i| ≤ 2 * p * (o' + 1 - o) := by
  have k1 := cellValue_lip (p := p) (c := c) (N := N) (by omega) h0 h1 zero_le_one (le_refl 1)
  have k2 := cellValue_lip (p := p) (c := c + 1) (N := N) hN (le_refl 0) zero_le_one h0' h1'
  have k3 : ∑ i ∈ range N, |cellValue p c o i - cellValue p (c + 1) o' i| ≤
      ∑ i ∈ range N, |cellValue p c o i - cellValue p c 1 i| + ∑ i ∈ range N, |cellValue p (c + 1) 0 i - cellValue p (c + 1) o' i| := by
    rw [← sum_add_distrib]
    refine sum_le_sum fun i _ => ?_
    have := abs_sub_le (cellValue p c o i) (cellValue p c 1 i) (cellValue p (c + 1) o' i)
    rwa [cellValue_knot hp c i] at this ⊢
  rw [abs_of_nonpos (by linarith)] at k1
  rw [abs_of_nonpos (by linarith)] at k2
  linarith

/-- The values at two near points. -/
theorem cellValue_near {p c c' n : Nat} (hp : 0 < p) (hc : c ≤ n) (hc' : c' ≤ n) {o o' : Rat} (h0 : 0 ≤ o) (h1 : o ≤ 1)
    (h0' : 0 ≤ o') (h1' : o' < 1) (hd : |(c : Rat) + o - (c' + o')| < 1) :
    ∑ i ∈ range (n + p + 1), |cellValue p c o i - cellValue p c' o' i| ≤ 2 * p * |(c : Rat) + o - (c' + o')| := by
  have hlt := abs_lt.1 hd
  have q1 : c' ≤ c + 1 := by
    by_contra h
    have : (c : Rat) + 2 ≤ c' := by exact_mod_cast (by omega : c + 2 ≤ c')
    linarith
  have q2 : c ≤ c' + 1 := by
    by_contra h
    have : (c' : Rat) + 2 ≤ c := by exact_mod_cast (by omega : c' + 2 ≤ c)
    linarith
  obtain h | h | h : c' = c ∨ c' = c + 1 ∨ c = c' + 1 := by omega
  · subst h
    have := cellValue_lip (p := p) (c := c') (N := n + p + 1) (by omega) h0 h1 h0' h1'.le
    rwa [show (c' : Rat) + o - (c' + o') = o - o' by ring]
  · subst h
    have := cellValue_next (c := c) (N := n + p + 1) hp (by omega) h0 h1 h0' h1'.le
    rw [abs_of_nonpos (by push_cast; linarith)]
    push_cast
    refine this.trans (le_of_eq (by ring))
  · subst h
    have := cellValue_next (c := c') (N := n + p + 1) hp (by omega) h0' h1'.le h0 h1
    rw [abs_of_nonneg (by push_cast; linarith)]
    push_cast
    refine (le_of_eq (sum_congr rfl fun i _ => abs_sub_comm _ _)).trans (this.trans (le_of_eq (by ring)))

/-- Specification: the array `v` with the index `m` of its first entry lists the values at `x` of `N` B-splines of degree
`p`, the others being taken as zero: none is negative, the errors of the `N` values add up to at most `ε`, the sum is `1`
up to `δ`. -/
structure BasisClose (t : Nat → Rat) (b : Rat) (p N : Nat) (x : Rat) (m : Nat) (v : Arr Rat) (ε δ : Rat) : Prop where
  size : v.size = p + 1
  last : m + p < N
  near : ∃ f : Nat → Rat, (∀ r, r ≤ p → v.val r = some (f (m + r))) ∧ (∀ i, ¬ (m ≤ i ∧ i ≤ m + p) → f i = 0) ∧
    (∀ i, 0 ≤ f i) ∧ ∑ i ∈ range N, |f i - Spec.bspline t b p i x| ≤ ε ∧ |∑ i ∈ range N, f i - 1| ≤ δ

/-- `eval_basis` at a known cell and offset. -/
theorem ubs_evalBasisR (hfl : RoundsAll fl) {k : Knots} {n p : Nat} (hp : 0 < p) (hp' : p < 2 ^ 20) (hk : k.p = p)
    {x : Rat} {c : Nat} {o : Rat} (hg : getIcellAndOffset fl k x = .ok ((c : Int), o)) (hc : c ≤ n) (h0 : 0 ≤ o) (h1 : o ≤ 1)
    {y Δ : Rat} (hy0 : 0 ≤ y) (hy : y < n + 1) (hd : |(c : Rat) + o - y| ≤ Δ) (hΔ : Δ < 1) {values : Arr Rat}
    (hv : values.size = p + 1) :
    ∃ v, k.evalBasis fl values x = .ok (v, (c : Int)) ∧
      BasisClose (intKnot p) (n + 1) p (n + p + 1) y c v (p * (p + 13) / 2 ^ 53 + 2 * p * Δ) (6 * p / 2 ^ 53) := by
  obtain ⟨v, e, hl⟩ := Knots.triangle_ok (fl := fl) o 1 p (values.set 0 1) (p + 1) (by omega) (by simpa using hv)
    (by rw [Arr.set_val, if_pos rfl])
  obtain ⟨k1, k2, k3⟩ := ubs_lines hfl h0 h1 hp'
  have hd' : decide (values.size = k.p + 1) = true := by rw [hk]; exact decide_eq_true hv
  have hsz : (values.set 0 1).size - 1 = p := by rw [Arr.set_size, hv]; rfl
  refine ⟨v, ?_, hl.1, by omega, fun i => if c ≤ i ∧ i ≤ c + p then triR fl (uA fl o) (uB fl o) uD 1 p (i - c) else 0,
    ?_, ?_, ?_, ?_, ?_⟩
  · rw [Knots.evalBasis, hd', Res.guardAbort_true, Res.ok_bind, hg, Res.ok_bind, Arr.wr_ok (by omega), Res.ok_bind, hsz, e]
    rfl
  · intro r hr
    dsimp only
    rw [hl.2 r hr, if_pos (by omega), Nat.add_sub_cancel_left]
  · intro i hi
    exact if_neg hi
  · intro i
    dsimp only
    split
    · exact k1 _ (by omega)
    · exact le_refl _
  · obtain ⟨c', hc1⟩ : ∃ c' : Nat, (c' : Int) = ⌊y⌋ := ⟨⌊y⌋.toNat, Int.toNat_of_nonneg (Int.floor_nonneg.2 hy0)⟩
    have f1 : (c' : Rat) ≤ y := by
      have := Int.floor_le y
      rw [← hc1] at this; exact_mod_cast this
    have f2 : y < c' + 1 := by
      have := Int.lt_floor_add_one y
      rw [← hc1] at this; exact_mod_cast this
    have hc' : c' ≤ n := by
      have : (c' : Rat) < n + 1 := by linarith
      have : c' < n + 1 := by exact_mod_cast this
      omega
    have g := cellValue_near (n := n) (o := o) (o' := y - c') hp hc hc' h0 h1 (by linarith) (by linarith)
      (by rw [add_sub_cancel]; linarith)
    rw [add_sub_cancel] at g
    have g2 : ∑ i ∈ range (n + p + 1), |(if c ≤ i ∧ i ≤ c + p then triR fl (uA fl o) (uB fl o) uD 1 p (i - c) else 0) -
        cellValue p c o i| ≤ p * (p + 13) / 2 ^ 53 := by
      rw [cell_sum (c := c) (p := p) (by omega) (f := fun i => |(if c ≤ i ∧ i ≤ c + p then
        triR fl (uA fl o) (uB fl o) uD 1 p (i - c) else 0) - cellValue p c o i|)
        (fun i hi => by simp only [cellValue, if_neg hi, sub_self, abs_zero])]
      refine le_of_eq_of_le (sum_congr rfl fun r hr => ?_) k3
      rw [mem_range] at hr
      rw [cellValue, if_pos (by omega), if_pos (by omega), Nat.add_sub_cancel_left]
    have g3 : ∑ i ∈ range (n + p + 1), |(if c ≤ i ∧ i ≤ c + p then triR fl (uA fl o) (uB fl o) uD 1 p (i - c) else 0) -
        Spec.bspline (intKnot p) (n + 1) p i y| ≤
        ∑ i ∈ range (n + p + 1), |(if c ≤ i ∧ i ≤ c + p then triR fl (uA fl o) (uB fl o) uD 1 p (i - c) else 0) -
        cellValue p c o i| + ∑ i ∈ range (n + p + 1), |cellValue p c o i - cellValue p c' (y - c') i| := by
      rw [← sum_add_distrib]
      refine sum_le_sum fun i _ => ?_
      rw [int_bspline f1 f2 hy i]
      exact abs_sub_le _ _ _
    have g4 : 2 * (p : Rat) * |(c : Rat) + o - y| ≤ 2 * p * Δ := mul_le_mul_of_nonneg_left hd (by positivity)
    linarith
  · rw [cell_sum (c := c) (p := p) (by omega) (f := fun i => if c ≤ i ∧ i ≤ c + p then
        triR fl (uA fl o) (uB fl o) uD 1 p (i - c) else 0) (fun i hi => if_neg hi)]
    refine le_of_eq_of_le (congrArg (fun s => |s - 1|) (sum_congr rfl fun r hr => ?_)) k2
    rw [mem_range] at hr
    rw [if_pos (by omega), Nat.add_sub_cancel_left]

/-- Uniform B-splines on `n` cells, whatever the rounding: at a coordinate between the first and the last break points,
`eval_basis` returns the values, at the distance from the first break point in units of the step, of the B-splines on the
integers.  The B-spline number `n + p` is not one of the `n + p` B-splines of the discretization.
Missing: the first B-spline has a number less than `n`, not just at most `n` (`C60_past_the_end`), if the coordinate is
close to the last break point. -/
theorem C60_uniform_partial (hfl : RoundsAll fl) {a b : Rat} (hab : a < b) {n p : Nat} (hn : 0 < n) (hn' : n + 1 < 2 ^ 31)
    (hp : 0 < p) (hp' : p < 2 ^ 20) (hres : |a| * n ≤ 2 ^ 46 * (b - a)) {k : Knots} (hk : k = mkKnots fl a b n p) {x : Rat}
    (h1 : k.rmin fl ≤ x) (h2 : x ≤ k.rmax fl) (values : Arr Rat) (hv : values.size = p + 1) :
    ∃ (c : Nat) (v : Arr Rat), k.evalBasis fl values x = .ok (v, (c : Int)) ∧ c ≤ n ∧
      (x - k.rmin fl ≤ (1 - 1 / 2 ^ 50) * (n * k.step) → c < n) ∧
      (x < k.rmax fl → BasisClose (intKnot p) (n + 1) p (n + p + 1) ((x - k.rmin fl) / k.step) c v
        (p * (p + 13) / 2 ^ 53 + p * (n + 1) / 2 ^ 49) (6 * p / 2 ^ 53)) ∧
      (x = k.rmax fl → c + 1 = n ∧ BasisClose (intKnot p) (n + 1) p (n + p + 1) n c v
        (p * (p + 13) / 2 ^ 53) (6 * p / 2 ^ 53)) := by
  obtain ⟨hs, hlen⟩ := knots_bounds hfl hab hn (by omega) hp'.le hres
  obtain ⟨c, o, e, k1, k2, k3, k4, k5, k6, k7⟩ := C58_uniform_partial hfl hab hn hn' hp'.le hres hk h1 h2
  rw [← hk] at hs hlen
  obtain ⟨c, rfl⟩ := Int.eq_ofNat_of_zero_le k1
  have hkp : k.p = p := by rw [hk]; rfl
  have hn0 : (n : Rat) + 1 < 2 ^ 31 := by exact_mod_cast hn'
  have hy0 : 0 ≤ (x - k.rmin fl) / k.step := div_nonneg (by linarith) hs.le
  rcases lt_or_eq_of_le h2 with hx | hx
  · have hy : (x - k.rmin fl) / k.step < n + 1 := by
      rw [div_lt_iff₀ hs]
      have := (abs_le.1 hlen).2
      linarith
    have k5 := k5 hx
    rw [Int.cast_natCast] at k5
    obtain ⟨v, e1, e2⟩ := ubs_evalBasisR (n := n) hfl hp hp' hkp e (by omega) k3 k4 hy0 hy k5
      (by norm_num at *; linarith) hv
    refine ⟨c, v, e1, by omega, fun h => by have := k6 h; omega, fun _ => ?_, fun h => absurd h hx.ne⟩
    rwa [show (p : Rat) * (p + 13) / 2 ^ 53 + 2 * p * (1 / 2 ^ 50 * (n + 1)) =
      p * (p + 13) / 2 ^ 53 + p * (n + 1) / 2 ^ 49 by ring] at e2
  · have k7' := k7 hx
    have hc : c + 1 = n := by omega
    have ho : o = 1 := by
      have hlt : ¬ x ≤ k.rmin fl := by
        rw [hx, not_le]
        have := (abs_le.1 hlen).1
        have := mul_le_mul_of_nonneg_right (show (1 : Rat) ≤ n by exact_mod_cast hn) hs.le
        linarith
      rw [getIcellAndOffset, inside_ok hfl h1 h2, Res.ok_bind, if_neg hlt, if_pos hx.ge] at e
      exact (Prod.ext_iff.1 (Res.ok.inj e)).2.symm
    obtain ⟨v, e1, e2⟩ := ubs_evalBasisR (n := n) (y := n) (Δ := 0) hfl hp hp' hkp e (by omega) k3 k4 (Nat.cast_nonneg n)
      (by linarith) (by rw [ho, ← hc]; push_cast; simp) (by norm_num) hv
    refine ⟨c, v, e1, by omega, fun h => by have := k6 h; omega, fun h => absurd hx h.ne, fun _ => ⟨hc, ?_⟩⟩
    simpa using e2

/-- Cubic splines on 10 cells of `[0, 3.1]` at `x = 3.1`: the first B-spline has the number 10, the last one 13, whereas
there are 13 of them. -/
theorem C60_past_the_end : ∃ b : Rat, b = round53 (31 / 10) ∧
    (mkKnots round53 0 b 10 3).rmin round53 ≤ b ∧ b ≤ (mkKnots round53 0 b 10 3).rmax round53 ∧
    ((mkKnots round53 0 b 10 3).evalBasis round53 (Arr.uninit 4) b >>= fun s => Res.ok s.2) = .ok 10 := by
  refine ⟨_, rfl, ?_⟩
  decide +kernel

example : ∃ (c : Nat) (v : Arr Rat), (mkKnots round53 0 (round53 (31 / 10)) 10 3).evalBasis round53 (Arr.uninit 4) (round53 (3 / 2)) =
    .ok (v, (c : Int)) ∧ ∃ t b y, BasisClose t b 3 14 y c v (1 / 2 ^ 43) (1 / 2 ^ 48) := by
  obtain ⟨c, v, e, -, -, h, -⟩ := C60_uniform_partial (a := 0) (b := round53 (31 / 10)) (n := 10) (p := 3)
    (x := round53 (3 / 2)) round53_all (by decide +kernel) (by norm_num) (by norm_num) (by norm_num) (by norm_num)
    (by norm_num; decide +kernel) rfl (by decide +kernel) (by decide +kernel) (Arr.uninit 4) rfl
  obtain ⟨h1, h2, f, k1, k2, k3, k4, k5⟩ := h (by decide +kernel)
  exact ⟨c, v, e, _, _, _, h1, h2, f, k1, k2, k3, k4.trans (by norm_num), k5.trans (by norm_num)⟩

end DDC.Props
