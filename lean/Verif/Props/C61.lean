import Verif.Props.C60

/-!
# C61 — evaluation of a spline with rounding
-/

namespace DDC.Props

open One Rounded Spec Finset

variable {fl : Rat → Rat}

/-- The coefficients `c`, of which there are `N`. -/
def coefsOf (N : Nat) (c : Nat → Rat) : Coefs Rat
  | [i] => if i.toNat < N then .ok (c i.toNat) else .ub
  | _ => .ub

theorem coefsOf_ok {N i : Nat} (hi : i < N) (hN : N < 2 ^ 64) (c : Nat → Rat) :
    coefsOf N c [BitVec.ofNat 64 i] = .ok (c i) := by
  have : (BitVec.ofNat 64 i).toNat = i := by rw [BitVec.toNat_ofNat]; omega
  simp only [coefsOf, this, if_pos hi]

/-- The computed sum of products. -/
theorem sum1_near (hfl : RoundsAll fl) {p m N : Nat} (hp : p ≤ 2 ^ 20) (hm : m + p < N) (hN : N < 2 ^ 63) {c : Nat → Rat} {M : Rat}
    (hc : ∀ i, i < N → |c i| ≤ M) {v : Arr Rat} (hs : v.size = p + 1) {f : Nat → Rat}
    (hv : ∀ r, r ≤ p → v.val r = some (f (m + r))) (hf : ∀ i, 0 ≤ f i) :
    ∃ y, sum1 fl p v (BitVec.ofNat 64 m) (coefsOf N c) = .ok y ∧
      |y - ∑ r ∈ range (p + 1), c (m + r) * f (m + r)| ≤
        17 / 16 * (p + 2) / 2 ^ 53 * (M * ∑ r ∈ range (p + 1), f (m + r)) := by
  have hM : 0 ≤ M := (abs_nonneg _).trans (hc 0 (by omega))
  obtain ⟨y, e, h⟩ := forLoop_inv (f := fun i y => do
      let c ← coefsOf N c [BitVec.ofNat 64 m + BitVec.ofNat 64 i]
      let w ← v.rd i
      .ok (fl (y + fl (c * w))))
    (fun i y => |y - ∑ r ∈ range i, c (m + r) * f (m + r)| ≤
      17 / 16 * (i + 1) / 2 ^ 53 * (M * ∑ r ∈ range i, f (m + r))) (p + 1) 0 0 (by simp)
    (by
      intro i y _ hi h
      rw [Nat.zero_add] at hi
      have e1 : BitVec.ofNat 64 m + BitVec.ofNat 64 i = BitVec.ofNat 64 (m + i) := by
        rw [BitVec.ofNat_add]
      rw [e1, coefsOf_ok (by omega) (by omega), Res.ok_bind, Arr.rd_ok (by omega) (hv i (by omega)), Res.ok_bind]
      refine ⟨_, rfl, ?_⟩
      rw [sum_range_succ, sum_range_succ]
      obtain ⟨s, hs'⟩ : ∃ s, s = ∑ r ∈ range i, c (m + r) * f (m + r) := ⟨_, rfl⟩
      obtain ⟨S, hS⟩ : ∃ S, S = M * ∑ r ∈ range i, f (m + r) := ⟨_, rfl⟩
      obtain ⟨w, hw⟩ : ∃ w, w = c (m + i) * f (m + i) := ⟨_, rfl⟩
      obtain ⟨W, hW⟩ : ∃ W, W = M * f (m + i) := ⟨_, rfl⟩
      have hsS : |s| ≤ S := by
        rw [hs', hS, mul_sum]
        refine (abs_sum_le_sum_abs _ _).trans (sum_le_sum fun r hr => ?_)
        rw [mem_range] at hr
        rw [abs_mul, abs_of_nonneg (hf _)]
        exact mul_le_mul_of_nonneg_right (hc _ (by omega)) (hf _)
      have hwW : |w| ≤ W := by
        rw [hw, hW, abs_mul, abs_of_nonneg (hf _)]
        exact mul_le_mul_of_nonneg_right (hc _ (by omega)) (hf _)
      rw [mul_add M, ← hw, ← hW, ← hs', ← hS]
      rw [← hs', ← hS] at h
      have k1 := hfl.error w
      have k2 := hfl.error (y + fl w)
      have hS0 : 0 ≤ S := (abs_nonneg _).trans hsS
      have hW0 : 0 ≤ W := (abs_nonneg _).trans hwW
      obtain ⟨E, hE⟩ : ∃ E, E = 17 / 16 * ((i : Rat) + 1) / 2 ^ 53 * S := ⟨_, rfl⟩
      have hE1 : E ≤ 1 / 2 ^ 32 * S := by
        rw [hE]
        refine mul_le_mul_of_nonneg_right ?_ hS0
        have : (i : Rat) ≤ 1048576 := by exact_mod_cast (by omega : i ≤ 1048576)
        rw [div_le_iff₀ (by norm_num)]
        norm_num
        linarith
      rw [← hE] at h
      have k3 : |fl w| ≤ (1 + 1 / 2 ^ 53) * W := by
        have := abs_sub_abs_le_abs_sub (fl w) w
        have : |w| / 2 ^ 53 ≤ W / 2 ^ 53 := by gcongr
        linarith
      have k4 : |y| ≤ S + E := by
        have := abs_sub_abs_le_abs_sub y s
        linarith
      have k5 : |y + fl w| ≤ S + E + (1 + 1 / 2 ^ 53) * W := (abs_add_le _ _).trans (add_le_add k4 k3)
      have k6 : |fl (y + fl w) - (s + w)| ≤ |fl (y + fl w) - (y + fl w)| + (|y - s| + |fl w - w|) := by
        refine (abs_sub_le _ (y + fl w) _).trans (add_le_add (le_refl _) ?_)
        rw [show y + fl w - (s + w) = (y - s) + (fl w - w) by ring]
        exact abs_add_le _ _
      have k7 : |y + fl w| / 2 ^ 53 ≤ (S + E + (1 + 1 / 2 ^ 53) * W) / 2 ^ 53 := by gcongr
      have k8 : |w| / 2 ^ 53 ≤ W / 2 ^ 53 := by gcongr
      have k9 : 17 / 16 * (((i + 1 : Nat) : Rat) + 1) / 2 ^ 53 * (S + W) =
          E + 17 / 16 / 2 ^ 53 * S + 17 / 16 * ((i : Rat) + 2) / 2 ^ 53 * W := by
        rw [hE]; push_cast; ring
      have k10 : 17 / 16 * 2 / 2 ^ 53 * W ≤ 17 / 16 * ((i : Rat) + 2) / 2 ^ 53 * W := by
        have : (0 : Rat) ≤ i := Nat.cast_nonneg i
        gcongr
        linarith
      rw [k9]
      norm_num at *
      linarith)
  refine ⟨y, e, ?_⟩
  have e2 : 17 / 16 * (((0 + (p + 1) : Nat) : Rat) + 1) / 2 ^ 53 = 17 / 16 * (p + 2) / 2 ^ 53 := by push_cast; ring
  rw [e2, Nat.zero_add] at h
  exact h

/-- The error on the value of a spline, from those on the values of the B-splines. -/
theorem spline_near {N : Nat} {c f g : Nat → Rat} {M ε : Rat} (hc : ∀ i, i < N → |c i| ≤ M) (hM : 0 ≤ M)
    (h : ∑ i ∈ range N, |f i - g i| ≤ ε) : |∑ i ∈ range N, c i * f i - ∑ i ∈ range N, c i * g i| ≤ M * ε := by
  rw [← sum_sub_distrib]
  refine (abs_sum_le_sum_abs _ _).trans (le_trans ?_ (mul_le_mul_of_nonneg_left h hM))
  rw [mul_sum]
  refine sum_le_sum fun i hi => ?_
  rw [mem_range] at hi
  rw [← mul_sub, abs_mul]
  exact mul_le_mul_of_nonneg_right (hc i hi) (abs_nonneg _)

/-- The value of a spline from those of the B-splines. -/
theorem close_eval (hfl : RoundsAll fl) {t : Nat → Rat} {b x : Rat} {p m N : Nat} (hp : p ≤ 2 ^ 20) (hm : m + p < N)
    (hN : N < 2 ^ 63) {c : Nat → Rat} {M : Rat} (hc : ∀ i, i < N → |c i| ≤ M) {v : Arr Rat} (hs : v.size = p + 1)
    {f : Nat → Rat} (hv : ∀ r, r ≤ p → v.val r = some (f (m + r))) (hz : ∀ i, ¬ (m ≤ i ∧ i ≤ m + p) → f i = 0)
    (hf : ∀ i, 0 ≤ f i) {ε : Rat} (h1 : ∑ i ∈ range N, |f i - Spec.bspline t b p i x| ≤ ε)
    (h2 : |∑ i ∈ range N, f i - 1| ≤ 6 * p / 2 ^ 53) :
    ∃ y, sum1 fl p v (BitVec.ofNat 64 m) (coefsOf N c) = .ok y ∧
      |y - ∑ i ∈ range N, c i * Spec.bspline t b p i x| ≤ (ε + (2 * p + 3) / 2 ^ 53) * M := by
  have hM : 0 ≤ M := (abs_nonneg _).trans (hc 0 (by omega))
  obtain ⟨y, e, h⟩ := sum1_near hfl hp hm hN hc hs hv hf
  refine ⟨y, e, ?_⟩
  have k1 := spline_near hc hM h1
  rw [cell_sum hm (f := fun i => c i * f i) (fun i hi => by simp only [hz i hi, mul_zero])] at k1
  rw [cell_sum hm hz] at h2
  have hp0 : (0 : Rat) ≤ p := Nat.cast_nonneg p
  have hp1 : (p : Rat) ≤ 1048576 := by exact_mod_cast hp
  have k2 : ∑ r ∈ range (p + 1), f (m + r) ≤ 33 / 32 := by
    have h3 := (abs_le.1 h2).2
    have h4 : 6 * (p : Rat) / 2 ^ 53 ≤ 1 / 32 := by
      rw [div_le_iff₀ (by norm_num)]
      norm_num
      linarith
    linarith
  have k3 : 17 / 16 * ((p : Rat) + 2) / 2 ^ 53 * (M * ∑ r ∈ range (p + 1), f (m + r)) ≤ (2 * p + 3) / 2 ^ 53 * M := by
    rw [mul_comm M, ← mul_assoc]
    refine mul_le_mul_of_nonneg_right ?_ hM
    have : 17 / 16 * ((p : Rat) + 2) / 2 ^ 53 * ∑ r ∈ range (p + 1), f (m + r) ≤ 17 / 16 * ((p : Rat) + 2) / 2 ^ 53 * (33 / 32) :=
      mul_le_mul_of_nonneg_left k2 (by positivity)
    refine this.trans ?_
    rw [div_mul_eq_mul_div]
    gcongr
    linarith
  have k4 := abs_sub_le y (∑ r ∈ range (p + 1), c (m + r) * f (m + r)) (∑ i ∈ range N, c i * Spec.bspline t b p i x)
  rw [add_mul]
  linarith

/-- `eval_no_bc` with rounding on B-splines with the knots `t`. -/
theorem nubs_evalNoBcR (hfl : RoundsAll fl) {u : NUBS Rat} {p n : Nat} {t : Nat → Rat} (hu : u.Is p n t)
    (hp' : p ≤ 2 ^ 20) (g0 : t p < t (p + 1)) (g1 : t (p + n - 1) < t (p + n)) (x : Rat) (hx1 : t p ≤ x)
    (hx2 : x ≤ t (p + n)) (c : Nat → Rat) (M : Rat) (hc : ∀ i, i < n + p → |c i| ≤ M) :
    ∃ y, Rounded.evalNoBc fl u x (coefsOf (n + p) c) = .ok y ∧
      |y - ∑ i ∈ range (n + p), c i * Spec.bspline t (t (p + n)) p i x| ≤ (11 * p + 3) / 2 ^ 53 * M := by
  have hsm := hu.small
  obtain ⟨m, v, k1, k2, k3, ⟨k4, k5, f, k6, k7, k8⟩, -⟩ := nubs_evalBasisR hfl hu hp' g0 g1 x hx1 hx2 (Arr.uninit (p + 1)) rfl
  have hmN : m + p < n + p := by omega
  obtain ⟨y, e1, h⟩ := close_eval (t := t) (b := t (p + n)) (x := x) hfl hp' hmN (by omega) hc k4
    (ε := 9 * p / 2 ^ 53) (f := fun i => if m ≤ i ∧ i ≤ m + p then f (i - m) else 0)
    (fun r hr => by
      rw [if_pos (by omega), Nat.add_sub_cancel_left]; exact (k6 r hr).1)
    (fun i hi => if_neg hi)
    (fun i => by
      split
      · exact (k6 _ (by omega)).2
      · exact le_refl _)
    (by
      rw [cell_sum hmN (fun i hi => by rw [if_neg hi, k5 i (by omega), sub_zero, abs_zero])]
      refine le_of_eq_of_le (sum_congr rfl fun r hr => ?_) k7
      rw [mem_range] at hr
      rw [if_pos (by omega), Nat.add_sub_cancel_left])
    (by
      rw [cell_sum hmN (fun i hi => if_neg hi)]
      refine le_of_eq_of_le (congrArg (fun s => |s - 1|) (sum_congr rfl fun r hr => ?_)) k8
      rw [mem_range] at hr
      rw [if_pos (by omega), Nat.add_sub_cancel_left])
  refine ⟨y, ?_, h.trans (le_of_eq (by ring))⟩
  rw [Rounded.evalNoBc, hu.degree, k3, Res.ok_bind]
  dsimp only
  rw [show uid1 (el1 (BitVec.ofNat 64 m)) = .ok (BitVec.ofNat 64 m) from rfl, Res.ok_bind, e1]

/-- A spline on non-uniform B-splines, whatever the rounding: the computed value is that of the spline up to
`(11 p + 3) 2⁻⁵³` times the largest coefficient, for every coordinate of the domain; outside the result is that of the extrapolation rule of
the side. -/
theorem C61_non_uniform (hfl : RoundsAll fl) (p : Nat) (hp : 0 < p) (hp' : p ≤ 2 ^ 20) (breaks : List Rat)
    (hb : GoodBreaks breaks) (hs : breaks.length + 2 * p < 2 ^ 63) :
    ∃ u t, NUBS.mk' p false breaks = .ok u ∧ Monotone t ∧
      (∀ i (h : i < breaks.length), t (p + i) = breaks[i]) ∧
      (∀ k, k < breaks.length + 2 * p → u.knots.coordinate (el1 (BitVec.ofNat 64 k)) = .ok (t k)) ∧
      ∀ (lower upper : Rat → Coefs Rat → Res Rat) (x : Rat) (c : Nat → Rat) (M : Rat),
        (∀ i, i < breaks.length - 1 + p → |c i| ≤ M) → ∀ coef, coef = coefsOf (breaks.length - 1 + p) c →
        (x < t p → Rounded.eval fl u lower upper x coef = lower x coef) ∧
        (t (p + (breaks.length - 1)) < x → Rounded.eval fl u lower upper x coef = upper x coef) ∧
        (t p ≤ x → x ≤ t (p + (breaks.length - 1)) →
        ∃ y, Rounded.eval fl u lower upper x coef = .ok y ∧
          |y - ∑ i ∈ range (breaks.length - 1 + p), c i * Spec.bspline t (t (p + (breaks.length - 1))) p i x| ≤
            (11 * p + 3) / 2 ^ 53 * M) := by
  have h2 := hb.two
  obtain ⟨u, t, e, hper, hu, hk⟩ := NUBS.mk'_is hp false hb.two hs hb.sorted hb.lt
  obtain ⟨g0, g1⟩ := goodEnds hb hk
  refine ⟨u, t, e, hu.mono, hk.inner, fun k hk => hu.coord k (by omega), fun lower upper x c M hc coef hcoef => ?_⟩
  have hab := hu.mono (show p ≤ p + (breaks.length - 1) by omega)
  have ee : Rounded.eval fl u lower upper x coef = if x < t p then lower x coef
      else if t (p + (breaks.length - 1)) < x then upper x coef else Rounded.evalNoBc fl u x coef := by
    rw [Rounded.eval, hu.rmin, hu.rmax, Res.ok_bind, Res.ok_bind, hper, if_neg Bool.false_ne_true]
  rw [ee]
  refine ⟨fun h => if_pos h, fun h => by rw [if_neg (not_lt.2 (hab.trans h.le)), if_pos h], fun hx1 hx2 => ?_⟩
  rw [if_neg (not_lt.2 hx1), if_neg (not_lt.2 hx2), hcoef]
  exact nubs_evalNoBcR hfl hu hp' g0 g1 x hx1 hx2 c M hc

/-- If the last index is out of bounds, so is the read. -/
theorem sum1_ub {p m N : Nat} (hm : m + p = N) (hN : N < 2 ^ 63) (c : Nat → Rat) {v : Arr Rat} (hs : v.size = p + 1)
    {f : Nat → Rat} (hv : ∀ r, r ≤ p → v.val r = some (f (m + r))) :
    sum1 fl p v (BitVec.ofNat 64 m) (coefsOf N c) = .ub := by
  rw [sum1, forLoop_snoc]
  obtain ⟨y, e, -⟩ := forLoop_inv (f := fun i y => do
      let c ← coefsOf N c [BitVec.ofNat 64 m + BitVec.ofNat 64 i]
      let w ← v.rd i
      .ok (fl (y + fl (c * w)))) (fun _ _ => True) p 0 0 trivial
    (by
      intro i y _ hi _
      rw [Nat.zero_add] at hi
      rw [← BitVec.ofNat_add, coefsOf_ok (by omega) (by omega), Res.ok_bind, Arr.rd_ok (by omega) (hv i (by omega)),
        Res.ok_bind]
      exact ⟨_, rfl, trivial⟩)
  rw [e, Res.ok_bind, Nat.zero_add, ← BitVec.ofNat_add, hm]
  have h1 : (BitVec.ofNat 64 N).toNat = N := by rw [BitVec.toNat_ofNat]; omega
  simp only [coefsOf, h1, lt_irrefl, if_false]
  rfl

/-- `C61_uniform_partial` for `eval_no_bc`. -/
theorem uniform_evalNoBcR (hfl : RoundsAll fl) {a b : Rat} (hab : a < b) {n p : Nat} (hn : 0 < n) (hn' : n + 1 < 2 ^ 31)
    (hp : 0 < p) (hp' : p < 2 ^ 20) (hres : |a| * n ≤ 2 ^ 46 * (b - a)) {k : Knots} (hk : k = mkKnots fl a b n p) {x : Rat}
    (h1 : k.rmin fl ≤ x) (h2 : x ≤ k.rmax fl) (c : Nat → Rat) {M : Rat} (hc : ∀ i, i < n + p → |c i| ≤ M) :
    (∃ y, k.evalNoBc fl x (coefsOf (n + p) c) = .ok y ∧
      (x < k.rmax fl →
        |y - ∑ i ∈ range (n + p), c i * Spec.bspline (intKnot p) (n + 1) p i ((x - k.rmin fl) / k.step)| ≤
          (p * (p + 15) / 2 ^ 53 + 3 / 2 ^ 53 + p * (n + 1) / 2 ^ 49) * M) ∧
      (x = k.rmax fl →
        |y - ∑ i ∈ range (n + p), c i * Spec.bspline (intKnot p) (n + 1) p i n| ≤
          (p * (p + 15) / 2 ^ 53 + 3 / 2 ^ 53) * M)) ∨
    (k.evalNoBc fl x (coefsOf (n + p) c) = .ub ∧ (1 - 1 / 2 ^ 50) * (n * k.step) < x - k.rmin fl ∧ x < k.rmax fl) := by
  obtain ⟨m, v, e, k1, k2, k3, k4⟩ := C60_uniform_partial hfl hab hn hn' hp hp' hres hk h1 h2 (Arr.uninit (p + 1)) rfl
  have hkp : k.p = p := by rw [hk]; rfl
  have e0 : k.evalNoBc fl x (coefsOf (n + p) c) = sum1 fl p v (BitVec.ofNat 64 m) (coefsOf (n + p) c) := by
    rw [Knots.evalNoBc, hkp, e, Res.ok_bind]
    dsimp only
    rw [BitVec.ofInt_natCast]
  have go : ∀ z ε, m < n → BasisClose (intKnot p) (n + 1) p (n + p + 1) z m v ε (6 * p / 2 ^ 53) →
      ∃ y, k.evalNoBc fl x (coefsOf (n + p) c) = .ok y ∧
        |y - ∑ i ∈ range (n + p), c i * Spec.bspline (intKnot p) (n + 1) p i z| ≤ (ε + (2 * p + 3) / 2 ^ 53) * M := by
    rintro z ε hm ⟨q1, q2, f, q3, q4, q5, q6, q7⟩
    have hf : f (n + p) = 0 := q4 _ (by omega)
    rw [sum_range_succ] at q6 q7
    rw [hf, add_zero] at q7
    obtain ⟨y, e1, h⟩ := close_eval (N := n + p) hfl hp'.le (by omega) (by omega) hc q1 q3 q4 q5
      (le_trans (le_add_of_nonneg_right (abs_nonneg _)) q6) q7
    exact ⟨y, e0.trans e1, h⟩
  rcases lt_or_eq_of_le h2 with hx | hx
  · rcases Nat.lt_or_eq_of_le k1 with hm | hm
    · obtain ⟨y, e1, h⟩ := go _ _ hm (k3 hx)
      exact Or.inl ⟨y, e1, fun _ => h.trans (le_of_eq (by ring)), fun h => absurd h hx.ne⟩
    · refine Or.inr ⟨?_, ?_, hx⟩
      · obtain ⟨q1, q2, f, q3, -⟩ := k3 hx
        exact e0.trans (sum1_ub (by omega) (by omega) c q1 q3)
      · by_contra h
        exact absurd (k2 (not_lt.1 h)) (by omega)
  · obtain ⟨y, e1, h⟩ := go _ _ (by have := (k4 hx).1; omega) (k4 hx).2
    exact Or.inl ⟨y, e1, fun h => absurd hx h.ne, fun _ => h.trans (le_of_eq (by ring))⟩

/-- A spline on uniform B-splines with `n + p` coefficients, whatever the rounding, at a coordinate between the first and
the last break points: either the computed value is that of the spline, on the integers and in units of the step, up to a
small multiple of the largest coefficient; or the coordinate is at a relative distance less than `2⁻⁵⁰` of the end and a
coefficient out of bounds is read.  Outside of the break points the result is that of the extrapolation rule of the side.
Missing: the second case should not exist (`C61_past_the_end`). -/
theorem C61_uniform_partial (hfl : RoundsAll fl) {a b : Rat} (hab : a < b) {n p : Nat} (hn : 0 < n) (hn' : n + 1 < 2 ^ 31)
    (hp : 0 < p) (hp' : p < 2 ^ 20) (hres : |a| * n ≤ 2 ^ 46 * (b - a)) {k : Knots} (hk : k = mkKnots fl a b n p) (lower upper : Rat → Coefs Rat → Res Rat) (x : Rat)
    (c : Nat → Rat) {M : Rat} (hc : ∀ i, i < n + p → |c i| ≤ M) :
    (x < k.rmin fl → k.eval fl false lower upper x (coefsOf (n + p) c) = lower x (coefsOf (n + p) c)) ∧
    (k.rmax fl < x → k.eval fl false lower upper x (coefsOf (n + p) c) = upper x (coefsOf (n + p) c)) ∧
    (k.rmin fl ≤ x → x ≤ k.rmax fl →
      (∃ y, k.eval fl false lower upper x (coefsOf (n + p) c) = .ok y ∧
        (x < k.rmax fl →
          |y - ∑ i ∈ range (n + p), c i * Spec.bspline (intKnot p) (n + 1) p i ((x - k.rmin fl) / k.step)| ≤
            (p * (p + 15) / 2 ^ 53 + 3 / 2 ^ 53 + p * (n + 1) / 2 ^ 49) * M) ∧
        (x = k.rmax fl →
          |y - ∑ i ∈ range (n + p), c i * Spec.bspline (intKnot p) (n + 1) p i n| ≤
            (p * (p + 15) / 2 ^ 53 + 3 / 2 ^ 53) * M)) ∨
      (k.eval fl false lower upper x (coefsOf (n + p) c) = .ub ∧ (1 - 1 / 2 ^ 50) * (n * k.step) < x - k.rmin fl ∧ x < k.rmax fl)) := by
  have hr : k.rmin fl < k.rmax fl := by
    obtain ⟨hs, hlen⟩ := knots_bounds hfl hab hn (by omega) hp'.le hres
    rw [← hk] at hs hlen
    have hn0 : (1 : Rat) ≤ n := by exact_mod_cast hn
    have h1 := (abs_le.1 hlen).1
    have h2 := mul_le_mul_of_nonneg_right hn0 hs.le
    linarith
  refine ⟨fun h => ?_, fun h => ?_, fun h1 h2 => ?_⟩
  · rw [Knots.eval, if_neg Bool.false_ne_true, if_pos h]
  · rw [Knots.eval, if_neg Bool.false_ne_true, if_neg (not_lt.2 (hr.trans h).le), if_pos h]
  · rw [Knots.eval, if_neg Bool.false_ne_true, if_neg (not_lt.2 h1), if_neg (not_lt.2 h2)]
    exact uniform_evalNoBcR hfl hab hn hn' hp hp' hres hk h1 h2 c hc

/-- Cubic splines on 10 cells of `[0, 3.1]`: the evaluation at `x = 3.1` reads a coefficient out of bounds. -/
theorem C61_past_the_end (c : Nat → Rat) : ∃ b : Rat, b = round53 (31 / 10) ∧
    (mkKnots round53 0 b 10 3).eval round53 false (fun _ _ => .ok 0) (fun _ _ => .ok 0) b (coefsOf 13 c) = .ub := by
  refine ⟨_, rfl, ?_⟩
  rw [Knots.eval, if_neg Bool.false_ne_true, if_neg (by decide +kernel), if_neg (by decide +kernel)]
  obtain ⟨m, v, e, -, -, h, -⟩ := C60_uniform_partial (a := 0) (b := round53 (31 / 10)) (n := 10) (p := 3)
    (x := round53 (31 / 10)) round53_all (by decide +kernel) (by norm_num) (by norm_num) (by norm_num) (by norm_num)
    (by norm_num; decide +kernel) rfl (by decide +kernel) (by decide +kernel) (Arr.uninit 4) rfl
  obtain ⟨b, rfl, -, -, e2⟩ := C60_past_the_end
  rw [e, Res.ok_bind] at e2
  obtain rfl : m = 10 := Int.ofNat.inj (Res.ok.inj e2)
  obtain ⟨q1, q2, f, q3, -⟩ := h (by decide +kernel)
  rw [Knots.evalNoBc, show (mkKnots round53 0 (round53 (31 / 10)) 10 3).p + 1 = 4 from rfl, e, Res.ok_bind]
  exact sum1_ub (p := 3) (m := 10) (N := 13) rfl (by norm_num) c q1 q3

example : ∃ u t y, NUBS.mk' 3 false [(0 : Rat), 1, 3, 4, 6, 6, 7] = .ok u ∧
    Rounded.eval round53 u (fun _ _ => .ok 0) (fun _ _ => .ok 1) (round53 (16 / 3)) (coefsOf 9 fun i => (-1) ^ i) = .ok y ∧
    |y - ∑ i ∈ range 9, (-1) ^ i * Spec.bspline t (t 9) 3 i (round53 (16 / 3))| ≤ 36 / 2 ^ 53 := by
  obtain ⟨u, t, e, -, k1, -, k2⟩ := C61_non_uniform round53_all 3 (by norm_num) (by norm_num)
    [(0 : Rat), 1, 3, 4, 6, 6, 7] ⟨by decide, (isSorted_iff _).1 (by decide +kernel), by decide +kernel, by decide +kernel⟩ (by decide)
  obtain ⟨y, e1, h⟩ := (k2 (fun _ _ => .ok 0) (fun _ _ => .ok 1) (round53 (16 / 3))
    (fun i => (-1) ^ i) 1 (fun i _ => by rw [abs_pow, abs_neg, abs_one, one_pow]) _ rfl).2.2
    (by rw [show 3 = 3 + 0 by rfl, k1 0 (by decide)]; decide +kernel) (by rw [k1 _ (by decide)]; decide +kernel)
  exact ⟨u, t, y, e, e1, h.trans (by norm_num)⟩

end DDC.Props
