import Verif.Props.C63
import Verif.Props.C67
import Verif.Spec.Builder

/-!
# C71 — derivatives of a spline in several dimensions with rounding
-/

namespace DDC.Props

open DDC.One Rounded Spec Finset Polynomial

variable {fl : Rat → Rat}

/-- The exact values of the functions of a dimension of a request, a bound of the sum of their absolute values and the
relative precision of what is computed. -/
structure DVals where
  w : Nat → Rat
  W : Rat
  ε : Rat

/-- One dimension of a request to an evaluator: B-splines, the order of the derivative if any, the coordinate, the number and
the degree of the B-splines, and the specification of their values or derivatives at the coordinate. -/
structure DDim where
  b : Basis
  order : Option Nat
  x : Rat
  size : Nat
  p : Nat
  spec : DVals → Prop

/-- The requests, and their specification.

* Values of B-splines: those of `DimIs`.
* Derivatives of order `k` on non-uniform B-splines, at a coordinate of the domain: the derivatives at `x` of the polynomials
  the B-splines are on the interval `c` that contains `x`; the sum of their absolute values is bounded by
  `p! / (p - k)! (k + 1) (2 / δ)^k`, `δ` being the length of the interval.
* Derivatives of order `k` on `n` cells of uniform B-splines: the derivatives at `z` of the polynomials that the B-splines on
  the integers are on the interval from `m` to `m + 1` that contains `z`, divided by the power `k` of the step.  `z` is the
  distance from `x` to the first break point in units of the step up to a few units of the last place.  The coordinates at a
  relative distance less than `2⁻⁵⁰` from the upper end are excluded, except for the upper end itself (see
  `C61_past_the_end`). -/
inductive DDim.Is (fl : Rat → Rat) : DDim → Prop
  | value {d : RDim} (h : d.Is fl) : DDim.Is fl ⟨d.b, none, d.x, d.size, d.p, fun T => T = ⟨d.w, 1, d.ε⟩⟩
  | nonUniform {p k : Nat} {breaks : List Rat} {u : NUBS Rat} {t : Nat → Rat} {x : Rat} (hp : 0 < p) (hp' : p < 2 ^ 20)
      (hb : GoodBreaks breaks) (hs : breaks.length + 2 * p < 2 ^ 63) (hu : NUBS.mk' p false breaks = .ok u)
      (ht : ∀ k, k < breaks.length + 2 * p → u.knots.coordinate (el1 (BitVec.ofNat 64 k)) = .ok (t k))
      (h1 : t p ≤ x) (h2 : x ≤ t (p + (breaks.length - 1))) (hk0 : 0 < k) (hk : k ≤ p)
      (hf : p ≤ 12 ∨ ∀ l, l ≤ k → p.descFactorial l < 2 ^ 31) :
      DDim.Is fl ⟨.nonUniform u, some k, x, breaks.length - 1 + p, p, fun T => ∃ m, m < breaks.length - 1 ∧
        InCell t (t (p + (breaks.length - 1))) x (m + p) ∧
          T = ⟨fun J => basisDeriv t p (m + p) k J x,
            (p.descFactorial k : Nat) * (k + 1) * (2 / (t (m + p + 1) - t (m + p))) ^ k, (10 * p + 4) / 2 ^ 53⟩⟩
  | periodicNonUniform {p k : Nat} {breaks : List Rat} {u : NUBS Rat} {t : Nat → Rat} {x : Rat} (hp : 0 < p) (hp' : p < 2 ^ 20)
      (hb : WideEnds fl breaks) (hs : breaks.length + 2 * p < 2 ^ 63) (hu : Rounded.mkNubs fl p true breaks = .ok u)
      (ht : ∀ k, k < breaks.length + 2 * p → u.knots.coordinate (el1 (BitVec.ofNat 64 k)) = .ok (t k))
      (h1 : t p ≤ x) (h2 : x ≤ t (p + (breaks.length - 1))) (hk0 : 0 < k) (hk : k ≤ p)
      (hf : p ≤ 12 ∨ ∀ l, l ≤ k → p.descFactorial l < 2 ^ 31) :
      DDim.Is fl ⟨.nonUniform u, some k, x, breaks.length - 1 + p, p, fun T => ∃ m, m < breaks.length - 1 ∧
        InCell t (t (p + (breaks.length - 1))) x (m + p) ∧
          T = ⟨fun J => basisDeriv t p (m + p) k J x,
            (p.descFactorial k : Nat) * (k + 1) * (2 / (t (m + p + 1) - t (m + p))) ^ k, (10 * p + 4) / 2 ^ 53⟩⟩
  | uniform {a b : Rat} {n p k : Nat} {u : Knots} {x : Rat} (hab : a < b) (hn : 0 < n) (hn' : n + 1 < 2 ^ 31)
      (hp' : p < 2 ^ 20) (hres : |a| * n ≤ 2 ^ 46 * (b - a)) (hu : u = mkKnots fl a b n p) (h1 : u.rmin fl ≤ x)
      (h2 : x ≤ u.rmax fl) (hx : x - u.rmin fl ≤ (1 - 1 / 2 ^ 50) * (n * u.step) ∨ x = u.rmax fl) (hk0 : 0 < k) (hk : k ≤ p) :
      DDim.Is fl ⟨.uniform u, some k, x, n + p, p, fun T => ∃ (m : Nat) (z : Rat), m < n ∧ (m : Rat) ≤ z ∧ z ≤ m + 1 ∧
        (x < u.rmax fl → |z - (x - u.rmin fl) / u.step| ≤ 1 / 2 ^ 50 * (n + 1)) ∧ (x = u.rmax fl → z = n) ∧
          T = ⟨fun J => basisDeriv (intKnot p) p (m + p) k J z / u.step ^ k, (p + 1) * (2 / u.step) ^ k,
            (((p - k : Nat) : Rat) * (((p - k : Nat) : Rat) + 13) + 14 * k + 4) / 2 ^ 53⟩⟩

/-- A dimension with its exact values. -/
def DDim.with (d : DDim) (T : DVals) : TDim := ⟨d.b, d.order.map (BitVec.ofNat 64), d.x, d.size, T.w, T.W, d.p, T.ε⟩

theorem piece_congrR {t t' : Nat → Rat} {c : Nat} (p J : Nat) (h : ∀ i, J ≤ i → i ≤ J + p + 1 → t i = t' i) :
    piece t c p J = piece t' c p J := by
  induction p generalizing J with
  | zero => rfl
  | succ p ih =>
    rw [piece, piece, ih J fun i h1 h2 => h i h1 (by omega), ih (J + 1) fun i h1 h2 => h i (by omega) (by omega),
      h (J + p + 1) (by omega) (by omega), h J (by omega) (by omega), h (J + p + 2) (by omega) (by omega),
      h (J + 1) (by omega) (by omega)]

/-- The derivatives on the knots `t`. -/
theorem nubs_found (hfl : RoundsAll fl) {u : NUBS Rat} {p n k : Nat} {t : Nat → Rat} {x : Rat} (hp : 0 < p) (hp' : p < 2 ^ 20)
    (hu : u.Is p n t) (g0 : t p < t (p + 1)) (g1 : t (p + n - 1) < t (p + n)) (h1 : t p ≤ x) (h2 : x ≤ t (p + n))
    (hk0 : 0 < k) (hk : k ≤ p) (hf : ∀ l, l ≤ k → p.descFactorial l < 2 ^ 31) :
    ∃ m, m < n ∧ InCell t (t (p + n)) x (m + p) ∧
      ∃ o, (TDim.mk (.nonUniform u) (some (BitVec.ofNat 64 k)) x (n + p) (fun J => basisDeriv t p (m + p) k J x)
        ((p.descFactorial k : Nat) * (k + 1) * (2 / (t (m + p + 1) - t (m + p))) ^ k) p ((10 * p + 4) / 2 ^ 53)).Computed fl o := by
  have hsm := hu.small
  obtain ⟨m, d, hm, e, hd⟩ := nubs_nderivsR hfl hu g0 g1 x h1 h2 k hk hf (Arr2.uninit (p + 1) (k + 1)) rfl rfl
  choose! P α Q y q1 q2 q3 q4 q5 q6 using fun r hr => hd.value r k hr (le_refl k)
  obtain ⟨v, e2, s1, s2⟩ := derivColumn_ok (le_refl k) hd.rows hd.cols q4
  have hB0 : ∀ q i, 0 ≤ Spec.bspline t (t (p + n)) q i x := Spec.bspline_nonneg hu.mono hd.cell
  have hlt := hd.cell.lt
  have hδ : 0 < t (m + p + 1) - t (m + p) := sub_pos.2 hlt
  have hP : ∀ r, r ≤ p → P r = piece t (m + p) p (m + r) := fun r hr =>
    IsPiece.unique hlt (hu.mono (by omega)) (q1 r hr) (isPiece_piece hu.mono _ _ _ _)
  obtain ⟨B, hB⟩ : ∃ B : Rat, B = (p.descFactorial k : Nat) * (2 / (t (m + p + 1) - t (m + p))) ^ k := ⟨_, rfl⟩
  have hBn : 0 ≤ B := by rw [hB]; positivity
  have hW : (p.descFactorial k : Nat) * (k + 1) * (2 / (t (m + p + 1) - t (m + p))) ^ k = B * (k + 1) := by rw [hB]; ring
  obtain ⟨T, hT⟩ : ∃ T : Nat → Rat, ∀ r, T r = ∑ j ∈ range (k + 1), |α r j| * Spec.bspline t (t (p + n)) (p - k) (m + r + j) x :=
    ⟨_, fun _ => rfl⟩
  have hg : ∀ r, r ≤ p → |basisDeriv t p (m + p) k (m + r) x| ≤ T r := by
    intro r hr
    rw [basisDeriv, ← hP r hr, q3 r hr, eval_finsetSum, hT]
    refine (abs_sum_le_sum_abs _ _).trans (le_of_eq (sum_congr rfl fun j _ => ?_))
    rw [eval_mul, eval_C, abs_mul, ← q2 r hr j x hd.cell, abs_of_nonneg (hB0 _ _)]
  have b1 : ∑ r ∈ range (p + 1), T r ≤ B * (k + 1) := by
    have b2 : ∀ r ∈ range (p + 1), T r ≤ B * ∑ j ∈ range (k + 1), Spec.bspline t (t (p + n)) (p - k) (m + j + r) x := by
      intro r hr
      rw [mem_range] at hr
      rw [hT, mul_sum]
      refine sum_le_sum fun j hj => ?_
      rw [mem_range] at hj
      rw [show m + j + r = m + r + j by omega]
      by_cases hz : Spec.bspline t (t (p + n)) (p - k) (m + r + j) x = 0
      · rw [hz, mul_zero, mul_zero]
      · refine mul_le_mul_of_nonneg_right ?_ (hB0 _ _)
        rw [hB]; exact q6 r (by omega) j (by omega) hz
    refine (sum_le_sum b2).trans ?_
    rw [← mul_sum, sum_comm]
    refine mul_le_mul_of_nonneg_left ?_ hBn
    refine (sum_le_sum fun j _ => bspline_some hu.mono hd.cell (p - k) (m + j) (p + 1) (by omega)).trans ?_
    simp
  have hup := up_degree p hp'.le
  have hε0 : (0 : Rat) ≤ (10 * p + 4) / 2 ^ 53 := by positivity
  have hε1 : ((10 : Rat) * p + 4) / 2 ^ 53 ≤ 1 / 2 ^ 10 := by
    have : (p : Rat) ≤ 1048576 := by exact_mod_cast hp'.le
    rw [div_le_iff₀ (by norm_num)]
    norm_num
    linarith
  have hT0 : ∀ r, 0 ≤ T r := fun r => by
    rw [hT]; exact sum_nonneg fun j _ => mul_nonneg (abs_nonneg _) (hB0 _ _)
  have hn1 : ∀ r, r ≤ p → |y r - basisDeriv t p (m + p) k (m + r) x| ≤ (10 * p + 4) / 2 ^ 53 * T r := by
    intro r hr
    have := q5 r hr
    rw [hP r hr, ← hT] at this
    exact this.trans (mul_le_mul_of_nonneg_right hup (hT0 r))
  have hz : ∀ i, ¬ (m ≤ i ∧ i ≤ m + p) → basisDeriv t p (m + p) k i x = 0 := fun i hi => by
    rw [basisDeriv, piece_zero t _ p i (by omega)]; simp
  have hmN : m + p < n + p := by omega
  obtain ⟨w, hw⟩ : ∃ w : Nat → Rat, w = fun i => if m ≤ i ∧ i ≤ m + p then y (i - m) else 0 := ⟨_, rfl⟩
  have hw1 : ∀ r, r ≤ p → w (m + r) = y r := fun r hr => by
    rw [hw]; dsimp only; rw [if_pos (by omega), Nat.add_sub_cancel_left]
  have hw2 : ∀ i, ¬ (m ≤ i ∧ i ≤ m + p) → w i = 0 := fun i hi => by rw [hw]; exact if_neg hi
  have hunit : ∑ i ∈ range (n + p), |basisDeriv t p (m + p) k i x| ≤ B * (k + 1) := by
    rw [cell_sum hmN (fun i hi => by rw [hz i hi, abs_zero])]
    exact (sum_le_sum fun r hr => hg r (by rw [mem_range] at hr; omega)).trans b1
  have hnear : ∑ i ∈ range (n + p), |w i - basisDeriv t p (m + p) k i x| ≤ (10 * p + 4) / 2 ^ 53 * (B * (k + 1)) := by
    rw [cell_sum hmN (fun i hi => by rw [hz i hi, hw2 i hi, sub_zero, abs_zero])]
    refine (sum_le_sum fun r hr => ?_).trans (le_of_eq_of_le (mul_sum _ T _).symm (mul_le_mul_of_nonneg_left b1 hε0))
    rw [mem_range] at hr
    rw [hw1 r (by omega)]
    exact hn1 r (by omega)
  refine ⟨m, hm, hd.cell, ⟨n + p, p, w, m, v⟩, hp, ?_, ⟨s1, hmN, fun r hr => ?_, fun J hJ => hw2 J (by dsimp only at hJ; omega)⟩, ?_, rfl,
    rfl, hu.degree, ?_, ?_, hε0⟩
  · dsimp only
    rw [hW]; exact hunit
  · dsimp only
    rw [hw1 r hr]; exact s2 r hr
  · have ek : (BitVec.ofNat 64 k).toNat = k := by rw [BitVec.toNat_ofNat]; omega
    have g1 : decide (0 < k ∧ k ≤ p) = true := decide_eq_true ⟨hk0, hk⟩
    dsimp only
    rw [Basis.jminVals, ek, hu.degree, g1, Res.guardAbort_true, Res.ok_bind, e, Res.ok_bind]
    dsimp only
    rw [e2, Res.ok_bind]
    rfl
  · dsimp only
    rw [hW]
    have k1 : ∀ i ∈ range (n + p), |w i| ≤ |w i - basisDeriv t p (m + p) k i x| + |basisDeriv t p (m + p) k i x| := fun i _ => by
      have := abs_sub_abs_le_abs_sub (w i) (basisDeriv t p (m + p) k i x)
      linarith
    refine (sum_le_sum k1).trans ?_
    rw [sum_add_distrib, add_mul, one_mul, add_comm]
    refine add_le_add hunit (hnear.trans (mul_le_mul_of_nonneg_right hε1 (by positivity)))
  · dsimp only
    rw [hW]; exact hnear

theorem nubs_found' (hfl : RoundsAll fl) {u : NUBS Rat} {p n k : Nat} {t t' : Nat → Rat} {x : Rat} (hp : 0 < p)
    (hp' : p < 2 ^ 20) (hu : u.Is p n t') (g0 : t' p < t' (p + 1)) (g1 : t' (p + n - 1) < t' (p + n))
    (ht : ∀ k, k < n + 1 + 2 * p → u.knots.coordinate (el1 (BitVec.ofNat 64 k)) = .ok (t k)) (h1 : t p ≤ x) (h2 : x ≤ t (p + n))
    (hk0 : 0 < k) (hk : k ≤ p) (hf : p ≤ 12 ∨ ∀ l, l ≤ k → p.descFactorial l < 2 ^ 31) :
    ∃ m, m < n ∧ InCell t (t (p + n)) x (m + p) ∧
      ∃ o, (TDim.mk (.nonUniform u) (some (BitVec.ofNat 64 k)) x (n + p) (fun J => basisDeriv t p (m + p) k J x)
        ((p.descFactorial k : Nat) * (k + 1) * (2 / (t (m + p + 1) - t (m + p))) ^ k) p ((10 * p + 4) / 2 ^ 53)).Computed fl o := by
  have hsm := hu.small
  have htt : ∀ k, k < n + 1 + 2 * p → t k = t' k := fun k hk =>
    Res.ok.inj ((ht k hk).symm.trans (hu.coord k (by omega)))
  rw [htt p (by omega)] at h1
  rw [htt _ (by omega)] at h2
  obtain ⟨m, hm, hc, o, ho⟩ := nubs_found hfl hp hp' hu g0 g1 h1 h2 hk0 hk (factors_small hk hf)
  have eb : ∀ J, J < n + p → basisDeriv t p (m + p) k J x = basisDeriv t' p (m + p) k J x := fun J hJ => by
    rw [basisDeriv, basisDeriv, piece_congrR p J fun i _ h2 => htt i (by omega)]
  have e1 := htt (m + p) (by omega)
  have e2 := htt (m + p + 1) (by omega)
  have e3 := htt (p + n) (by omega)
  refine ⟨m, hm, ?_, o, ho.pos, ?_, ho.ok, ho.jmin, ho.size, ho.degree, ho.degree', ?_, ?_, ho.prec⟩
  · rw [InCell] at hc ⊢
    rw [e1, e2, e3]; exact hc
  · dsimp only
    rw [e1, e2, sum_congr rfl fun J hJ => by rw [eb J (mem_range.1 hJ)]]
    exact ho.unit
  · dsimp only
    rw [e1, e2]; exact ho.sum
  · dsimp only
    rw [e1, e2, sum_congr rfl fun J hJ => by rw [eb J (mem_range.1 hJ)]]
    exact ho.near

/-- The derivatives on uniform B-splines. -/
theorem ubs_found (hfl : RoundsAll fl) {a b : Rat} {n p k : Nat} {u : Knots} {x : Rat} (hab : a < b) (hn : 0 < n)
    (hn' : n + 1 < 2 ^ 31) (hp' : p < 2 ^ 20) (hres : |a| * n ≤ 2 ^ 46 * (b - a)) (hu : u = mkKnots fl a b n p)
    (h1 : u.rmin fl ≤ x) (h2 : x ≤ u.rmax fl) (hx : x - u.rmin fl ≤ (1 - 1 / 2 ^ 50) * (n * u.step) ∨ x = u.rmax fl)
    (hk0 : 0 < k) (hk : k ≤ p) :
    ∃ (m : Nat) (z : Rat), m < n ∧ (m : Rat) ≤ z ∧ z ≤ m + 1 ∧
      (x < u.rmax fl → |z - (x - u.rmin fl) / u.step| ≤ 1 / 2 ^ 50 * (n + 1)) ∧ (x = u.rmax fl → z = n) ∧
      ∃ o, (TDim.mk (.uniform u) (some (BitVec.ofNat 64 k)) x (n + p)
        (fun J => basisDeriv (intKnot p) p (m + p) k J z / u.step ^ k) ((p + 1) * (2 / u.step) ^ k) p
        ((((p - k : Nat) : Rat) * (((p - k : Nat) : Rat) + 13) + 14 * k + 4) / 2 ^ 53)).Computed fl o := by
  obtain ⟨hs, -⟩ := knots_bounds hfl hab hn (by omega) hp'.le hres
  rw [← hu] at hs
  obtain ⟨m, z, d, e, hd, q1, q2, q3⟩ := C67_uniform_partial hfl hab hn hn' hp' hres hu h1 h2 k hk
    (Arr2.uninit (p + 1) (k + 1)) rfl rfl
  have hm : m < n := by
    rcases hx with hx | hx
    · exact q1 hx
    · have := (q3 hx).1; omega
  choose! P y h1' h4 h5 h6 using fun r hr => hd.value r k hr (le_refl k)
  obtain ⟨v, e2, s1, s2⟩ := derivColumn_ok (le_refl k) hd.rows hd.cols h4
  have hP : ∀ r, r ≤ p → P r = piece (intKnot p) (m + p) p (m + r) := fun r hr => by
    have hl : intKnot p (m + p) < intKnot p (m + p + 1) := by
      rw [intKnot, intKnot]; push_cast; linarith
    have hb : intKnot p (m + p + 1) ≤ n + 1 := by
      have : (m : Rat) + 1 ≤ n := by exact_mod_cast hm
      rw [intKnot]; push_cast; linarith
    have := h1' r hr
    rw [Nat.add_comm p m] at this
    exact IsPiece.unique hl hb this (isPiece_piece (intKnot_mono p) _ _ _ _)
  have hpos : 0 < u.step ^ k := pow_pos hs k
  obtain ⟨E, hE⟩ : ∃ E : Rat, E = (((p - k : Nat) : Rat) * (((p - k : Nat) : Rat) + 13) + 14 * k + 4) / 2 ^ 53 := ⟨_, rfl⟩
  have q0 : (0 : Rat) ≤ ((p - k : Nat) : Rat) := Nat.cast_nonneg _
  have hE0 : 0 ≤ E := by rw [hE]; positivity
  have hE1 : E ≤ 1 / 2 ^ 10 := by
    have q1 : ((p - k : Nat) : Rat) ≤ 1048576 := by exact_mod_cast (show p - k ≤ 1048576 by omega)
    have k1 : (k : Rat) ≤ 1048576 := by exact_mod_cast (show k ≤ 1048576 by omega)
    have : ((p - k : Nat) : Rat) * (((p - k : Nat) : Rat) + 13) ≤ 1048576 * (1048576 + 13) :=
      mul_le_mul q1 (by linarith) (by linarith) (by norm_num)
    rw [hE, div_le_iff₀ (by norm_num)]
    norm_num
    linarith
  have hW : ((p : Rat) + 1) * (2 / u.step) ^ k = (p + 1) * (2 ^ k / u.step ^ k) := by rw [div_pow]
  have hg : ∀ r, r ≤ p → |basisDeriv (intKnot p) p (m + p) k (m + r) z / u.step ^ k| ≤ 2 ^ k / u.step ^ k := fun r hr => by
    rw [basisDeriv, ← hP r hr, abs_div, abs_of_pos hpos]
    exact div_le_div_of_nonneg_right (h5 r hr) hpos.le
  have hn1 : ∀ r, r ≤ p → |y r - basisDeriv (intKnot p) p (m + p) k (m + r) z / u.step ^ k| ≤ E * (2 ^ k / u.step ^ k) := fun r hr => by
    have := h6 r hr
    rw [hP r hr, mul_div_assoc, ← hE] at this
    rw [basisDeriv, ← mul_div_assoc, le_div_iff₀ hpos, ← abs_of_pos hpos, ← abs_mul, sub_mul, abs_of_pos hpos,
      div_mul_cancel₀ _ hpos.ne', mul_comm E]
    exact this
  have hz : ∀ i, ¬ (m ≤ i ∧ i ≤ m + p) → basisDeriv (intKnot p) p (m + p) k i z / u.step ^ k = 0 := fun i hi => by
    rw [basisDeriv, piece_zero _ _ p i (by omega)]; simp
  have hmN : m + p < n + p := by omega
  obtain ⟨w, hw⟩ : ∃ w : Nat → Rat, w = fun i => if m ≤ i ∧ i ≤ m + p then y (i - m) else 0 := ⟨_, rfl⟩
  have hw1 : ∀ r, r ≤ p → w (m + r) = y r := fun r hr => by
    rw [hw]; dsimp only; rw [if_pos (by omega), Nat.add_sub_cancel_left]
  have hw2 : ∀ i, ¬ (m ≤ i ∧ i ≤ m + p) → w i = 0 := fun i hi => by rw [hw]; exact if_neg hi
  obtain ⟨f, hf⟩ : ∃ f : Nat → Rat, f = fun J => basisDeriv (intKnot p) p (m + p) k J z / u.step ^ k := ⟨_, rfl⟩
  have hunit : ∑ i ∈ range (n + p), |f i| ≤ (p + 1) * (2 ^ k / u.step ^ k) := by
    rw [cell_sum hmN (fun i hi => by rw [hf]; dsimp only; rw [hz i hi, abs_zero])]
    refine (sum_le_sum fun r hr => ?_).trans (le_of_eq ?_) (b := ∑ r ∈ range (p + 1), (2 ^ k / u.step ^ k))
    · rw [hf]; exact hg r (by rw [mem_range] at hr; omega)
    · rw [sum_const, card_range, nsmul_eq_mul]; push_cast; rfl
  have hnear : ∑ i ∈ range (n + p), |w i - f i| ≤ E * ((p + 1) * (2 ^ k / u.step ^ k)) := by
    rw [cell_sum hmN (fun i hi => by rw [hf]; dsimp only; rw [hz i hi, hw2 i hi, sub_zero, abs_zero])]
    refine (sum_le_sum fun r hr => ?_).trans (le_of_eq ?_) (b := ∑ r ∈ range (p + 1), E * (2 ^ k / u.step ^ k))
    · rw [mem_range] at hr
      rw [hw1 r (by omega), hf]
      exact hn1 r (by omega)
    · rw [sum_const, card_range, nsmul_eq_mul]; push_cast; ring
  have hup : u.p = p := by rw [hu]; rfl
  refine ⟨m, z, hm, hd.cell.2.1, hd.cell.2.2, q2, fun h => (q3 h).2, ⟨n + p, p, w, m, v⟩, show 0 < p by omega, ?_,
    ⟨s1, hmN, fun r hr => ?_, fun J hJ => hw2 J (by dsimp only at hJ; omega)⟩, ?_, rfl, rfl, hup, ?_, ?_, by
      dsimp only; rw [← hE]; exact hE0⟩
  · dsimp only
    rw [hf] at hunit
    rw [hW]; exact hunit
  · dsimp only
    rw [hw1 r hr]; exact s2 r hr
  · have ek : (BitVec.ofNat 64 k).toNat = k := by rw [BitVec.toNat_ofNat]; omega
    have g1 : decide (0 < k ∧ k ≤ p) = true := decide_eq_true ⟨hk0, hk⟩
    have ej : BitVec.ofInt 64 (m : Int) = BitVec.ofNat 64 m := by simp
    dsimp only
    rw [Basis.jminVals, ek, hup, g1, Res.guardAbort_true, Res.ok_bind, e, Res.ok_bind]
    dsimp only
    rw [e2, Res.ok_bind, ej]
    rfl
  · dsimp only
    rw [hW]
    have k1 : ∀ i ∈ range (n + p), |w i| ≤ |w i - f i| + |f i| := fun i _ => by
      have := abs_sub_abs_le_abs_sub (w i) (f i)
      linarith
    refine (sum_le_sum k1).trans ?_
    rw [sum_add_distrib, add_mul, one_mul, add_comm]
    exact add_le_add hunit (hnear.trans (mul_le_mul_of_nonneg_right hE1 (by positivity)))
  · dsimp only
    rw [hf] at hnear
    rw [hW, ← hE]; exact hnear

theorem DDim.Is.computed (hfl : RoundsAll fl) {d : DDim} (h : d.Is fl) : ∃ T, d.spec T ∧ ∃ o, (d.with T).Computed fl o := by
  cases h with
  | @value d h => exact ⟨_, rfl, h.computed hfl⟩
  | @nonUniform p k breaks u t x hp hp' hb hs hu ht h1 h2 hk0 hk hf =>
    have h2' := hb.two
    obtain ⟨u', t', e, -, hu', hk'⟩ := NUBS.mk'_is hp false hb.two hs hb.sorted hb.lt
    rw [hu] at e
    obtain rfl := Res.ok.inj e
    obtain ⟨g0, g1⟩ := goodEnds hb hk'
    obtain ⟨m, q1, q2, q3⟩ := nubs_found' hfl hp hp' hu' g0 g1 (fun k hk => ht k (by omega)) h1 h2 hk0 hk hf
    exact ⟨_, ⟨m, q1, q2, rfl⟩, q3⟩
  | @periodicNonUniform p k breaks u t x hp hp' hb hs hu ht h1 h2 hk0 hk hf =>
    have h2' := hb.two
    obtain ⟨u', t', e, -, hu', -, g0, g1, -⟩ := mkNubs_is hfl hp hs hb
    rw [hu] at e
    obtain rfl := Res.ok.inj e
    obtain ⟨m, q1, q2, q3⟩ := nubs_found' hfl hp hp' hu' g0 g1 (fun k hk => ht k (by omega)) h1 h2 hk0 hk hf
    exact ⟨_, ⟨m, q1, q2, rfl⟩, q3⟩
  | @uniform a b n p k u x hab hn hn' hp' hres hu h1 h2 hx hk0 hk =>
    obtain ⟨m, z, q1, q2, q3, q4, q5, q6⟩ := ubs_found hfl hab hn hn' hp' hres hu h1 h2 hx hk0 hk
    exact ⟨_, ⟨m, z, q1, q2, q3, q4, q5, rfl⟩, q6⟩

theorem DDim.Is.computed_list (hfl : RoundsAll fl) (ds : List DDim) (h : ∀ d ∈ ds, d.Is fl) :
    ∃ qs : List (DDim × DVals), ds = qs.map (·.1) ∧ ∀ q ∈ qs, q.1.spec q.2 ∧ ∃ o, (q.1.with q.2).Computed fl o := by
  induction ds with
  | nil => exact ⟨[], rfl, by simp⟩
  | cons d ds ih =>
    obtain ⟨qs, e, hq⟩ := ih fun x hx => h x (List.mem_cons_of_mem _ hx)
    obtain ⟨T, hT⟩ := (h d List.mem_cons_self).computed hfl
    exact ⟨(d, T) :: qs, by rw [List.map_cons, ← e], fun q hq' => by
      rcases List.mem_cons.1 hq' with rfl | hq'
      · exact hT
      · exact hq q hq'⟩

/-- In any number of dimensions, on uniform and non-uniform B-splines, whatever the rounding and for any choice of the
dimensions along which and of the orders to which the derivatives are taken: the computed value is the sum over all the products
of values and derivatives of B-splines, up to a small multiple of the largest coefficient and of the bounds of the sums of the
derivatives of the B-splines.
Missing: the coordinates of uniform dimensions excluded by `DDim.Is`, where a coefficient out of bounds may be read. -/
theorem C71_nd_partial (hfl : RoundsAll fl) {ds : List DDim} (hne : ds ≠ []) (h : ∀ d ∈ ds, d.Is fl)
    (hP : (ds.map fun d => d.p + 1).prod ≤ 2 ^ 40) {coef : Coefs Rat} {c : List Nat → Rat} (hh : Holds (ds.map (·.size)) coef c)
    {M : Rat} (hM : 0 ≤ M) (hc : ∀ l, List.Forall₂ (· < ·) l (ds.map (·.size)) → |c l| ≤ M) :
    ∃ (qs : List (DDim × DVals)) (y : Rat), ds = qs.map (·.1) ∧ (∀ q ∈ qs, q.1.spec q.2) ∧
      Rounded.noBcN fl (ds.map fun d => (d.b, d.order.map (BitVec.ofNat 64), d.x)) coef = .ok y ∧
      |y - tensor (qs.map fun q => (q.1.size, q.2.w)) c| ≤
        tensorError (ds.map fun d => d.p + 1).prod ds.length (qs.map (·.2.ε)).sum * ((qs.map (·.2.W)).prod * M) := by
  obtain ⟨qs, rfl, hq⟩ := DDim.Is.computed_list hfl ds h
  have e1 : ∀ {β : Type} (f : TDim → β), (qs.map fun q => q.1.with q.2).map f = qs.map fun q => f (q.1.with q.2) := fun f => by
    rw [List.map_map]; rfl
  have e2 : ∀ {β : Type} (f : DDim → β), (qs.map (·.1)).map f = qs.map fun q => f q.1 := fun f => by
    rw [List.map_map]; rfl
  rw [e2] at hP hh
  simp only [e2] at hc
  obtain ⟨y, e, h⟩ := nd_computed hfl (ds := qs.map fun q => q.1.with q.2) (by simpa using hne) (fun d hd => by
      obtain ⟨q, hq', rfl⟩ := List.mem_map.1 hd
      exact (hq q hq').2) (by rw [e1]; exact hP) (by rw [e1]; exact hh) hM (by rw [e1]; exact hc)
  simp only [e1] at e h
  rw [List.length_map] at h
  refine ⟨qs, y, rfl, fun q hq' => (hq q hq').1, ?_, ?_⟩
  · rw [e2]; exact e
  · rw [e2, List.length_map]; exact h

/-- In two dimensions.
Missing: the same as in `C71_nd_partial`. -/
theorem C71_2d_partial (hfl : RoundsAll fl) {d1 d2 : DDim} (h1 : d1.Is fl) (h2 : d2.Is fl) (hP : (d1.p + 1) * (d2.p + 1) ≤ 2 ^ 40)
    {coef : Coefs Rat} {c : Nat → Nat → Rat}
    (hh : ∀ i j, i < d1.size → j < d2.size → coef [BitVec.ofNat 64 i, BitVec.ofNat 64 j] = .ok (c i j))
    {M : Rat} (hM : 0 ≤ M) (hc : ∀ i j, i < d1.size → j < d2.size → |c i j| ≤ M) :
    ∃ (T1 T2 : DVals) (y : Rat), d1.spec T1 ∧ d2.spec T2 ∧
      Rounded.noBc2 fl d1.b d2.b (d1.order.map (BitVec.ofNat 64)) (d2.order.map (BitVec.ofNat 64)) d1.x d2.x coef = .ok y ∧
      |y - ∑ i ∈ range d1.size, ∑ j ∈ range d2.size, c i j * T1.w i * T2.w j| ≤
        tensorError ((d1.p + 1) * (d2.p + 1)) 2 (T1.ε + T2.ε) * (T1.W * T2.W * M) := by
  obtain ⟨T1, s1, o1, k1⟩ := h1.computed hfl
  obtain ⟨T2, s2, o2, k2⟩ := h2.computed hfl
  obtain ⟨y, e, h⟩ := computed_2d hfl k1 k2 hP hh hM hc
  exact ⟨T1, T2, y, s1, s2, e, h⟩

/-- In three dimensions.
Missing: the same as in `C71_nd_partial`. -/
theorem C71_3d_partial (hfl : RoundsAll fl) {d1 d2 d3 : DDim} (h1 : d1.Is fl) (h2 : d2.Is fl) (h3 : d3.Is fl)
    (hP : (d1.p + 1) * (d2.p + 1) * (d3.p + 1) ≤ 2 ^ 40) {coef : Coefs Rat} {c : Nat → Nat → Nat → Rat}
    (hh : ∀ i j k, i < d1.size → j < d2.size → k < d3.size →
      coef [BitVec.ofNat 64 i, BitVec.ofNat 64 j, BitVec.ofNat 64 k] = .ok (c i j k))
    {M : Rat} (hM : 0 ≤ M) (hc : ∀ i j k, i < d1.size → j < d2.size → k < d3.size → |c i j k| ≤ M) :
    ∃ (T1 T2 T3 : DVals) (y : Rat), d1.spec T1 ∧ d2.spec T2 ∧ d3.spec T3 ∧
      Rounded.noBc3 fl d1.b d2.b d3.b (d1.order.map (BitVec.ofNat 64)) (d2.order.map (BitVec.ofNat 64))
        (d3.order.map (BitVec.ofNat 64)) d1.x d2.x d3.x coef = .ok y ∧
      |y - ∑ i ∈ range d1.size, ∑ j ∈ range d2.size, ∑ k ∈ range d3.size, c i j k * T1.w i * T2.w j * T3.w k| ≤
        tensorError ((d1.p + 1) * (d2.p + 1) * (d3.p + 1)) 3 (T1.ε + T2.ε + T3.ε) * (T1.W * T2.W * T3.W * M) := by
  obtain ⟨T1, s1, o1, k1⟩ := h1.computed hfl
  obtain ⟨T2, s2, o2, k2⟩ := h2.computed hfl
  obtain ⟨T3, s3, o3, k3⟩ := h3.computed hfl
  obtain ⟨y, e, h⟩ := computed_3d hfl k1 k2 k3 hP hh hM hc
  exact ⟨T1, T2, T3, y, s1, s2, s3, e, h⟩

/-- The second derivative along ten uniform cells of `[0, 3.1]` and the first one along non-uniform cells. -/
example : ∃ (u : NUBS Rat) (T1 T2 : DVals) (y : Rat), NUBS.mk' 2 false [(0 : Rat), 1, 3, 4, 6, 6, 7] = .ok u ∧
    Rounded.noBc2 round53 (.uniform (mkKnots round53 0 (round53 (31 / 10)) 10 3)) (.nonUniform u) (some 2) (some 1)
      (round53 (3 / 2)) (round53 (16 / 3)) (fun l => match l with
      | [i, j] => if i.toNat < 13 ∧ j.toNat < 8 then .ok ((-1) ^ i.toNat * j.toNat) else .ub
      | _ => .ub) = .ok y ∧
    |y - ∑ i ∈ range 13, ∑ j ∈ range 8, (-1) ^ i * j * T1.w i * T2.w j| ≤ 1 / 2 ^ 40 * (T1.W * T2.W) := by
  have hb : GoodBreaks [(0 : Rat), 1, 3, 4, 6, 6, 7] :=
    ⟨by decide, (isSorted_iff _).1 (by decide +kernel), by decide +kernel, by decide +kernel⟩
  obtain ⟨u, t, e, -, hk1, hk2, -⟩ := C61_non_uniform round53_all 2 (by norm_num) (by norm_num)
    [(0 : Rat), 1, 3, 4, 6, 6, 7] hb (by decide)
  have h1 := DDim.Is.uniform (fl := round53) (a := 0) (b := round53 (31 / 10)) (n := 10) (p := 3) (k := 2) (x := round53 (3 / 2))
    (by decide +kernel) (by norm_num) (by norm_num) (by norm_num) (by norm_num; decide +kernel) rfl
    (by decide +kernel) (by decide +kernel) (Or.inl (by decide +kernel)) (by norm_num) (by norm_num)
  have h2 := DDim.Is.nonUniform (fl := round53) (p := 2) (k := 1) (x := round53 (16 / 3)) (by norm_num) (by norm_num) hb (by decide) e hk2
    (by rw [show 2 = 2 + 0 by rfl, hk1 0 (by decide)]; decide +kernel) (by rw [hk1 _ (by decide)]; decide +kernel)
    (by norm_num) (by norm_num) (Or.inl (by norm_num))
  obtain ⟨T1, T2, y, s1, s2, e', h⟩ := C71_2d_partial round53_all h1 h2 (by norm_num)
    (coef := fun l => match l with
      | [i, j] => if i.toNat < 13 ∧ j.toNat < 8 then .ok ((-1) ^ i.toNat * j.toNat) else .ub
      | _ => .ub) (c := fun i j => (-1) ^ i * j)
    (fun i j hi hj => by
      have e1 : (BitVec.ofNat 64 i).toNat = i := by
        rw [BitVec.toNat_ofNat]; dsimp only at hi; omega
      have e2 : (BitVec.ofNat 64 j).toNat = j := by
        rw [BitVec.toNat_ofNat]; simp only [List.length_cons, List.length_nil] at hj; omega
      dsimp only
      rw [e1, e2, if_pos ⟨by simpa using hi, by simpa using hj⟩]) (M := 8) (by norm_num)
    (fun i j hi hj => by
      rw [abs_mul, abs_pow, abs_neg, abs_one, one_pow, one_mul, abs_of_nonneg (Nat.cast_nonneg j)]
      have : j ≤ 8 := by simp only [List.length_cons, List.length_nil] at hj; omega
      exact_mod_cast this)
  refine ⟨u, T1, T2, y, e, e', h.trans ?_⟩
  obtain ⟨m, z, -, -, -, -, -, rfl⟩ := s1
  obtain ⟨m', -, hc, rfl⟩ := s2
  have hδ := sub_pos.2 hc.lt
  have hs : 0 < (mkKnots round53 0 (round53 (31 / 10)) 10 3).step := by decide +kernel
  dsimp only
  rw [mul_comm _ (8 : Rat), ← mul_assoc]
  refine mul_le_mul_of_nonneg_right ?_ (by positivity)
  rw [tensorError]
  norm_num

end DDC.Props
