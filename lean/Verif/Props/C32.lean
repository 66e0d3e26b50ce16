import Mathlib.Algebra.Polynomial.Roots
import Mathlib.Order.Interval.Set.Infinite
import Verif.Lemmas.Derivs
import Verif.Props.C31

/-!
# C32 — `eval_deriv` returns the derivatives of the polynomial pieces
-/

namespace DDC.Props

open One Polynomial

set_option linter.unusedSectionVars false

variable {K : Type} [Field K] [LinearOrder K] [IsStrictOrderedRing K]

/-- Specification: on the interval `c` of the knots, the B-spline `i` of degree `p` is the polynomial
`P`. -/
def IsPiece (t : Nat → K) (b : K) (p i c : Nat) (P : K[X]) : Prop :=
  ∀ y, Spec.InCell t b y c → Spec.bspline t b p i y = P.eval y

/-- The polynomial is determined by this: an interval contains infinitely many points. -/
theorem IsPiece.unique {t : Nat → K} {b : K} {p i c : Nat} (hc : t c < t (c + 1)) (hb : t (c + 1) ≤ b)
    {P Q : K[X]} (hP : IsPiece t b p i c P) (hQ : IsPiece t b p i c Q) : P = Q := by
  apply Polynomial.eq_of_infinite_eval_eq
  refine Set.Infinite.mono ?_ (Set.Ioo_infinite hc)
  intro y hy
  have hy' : Spec.InCell t b y c := by
    rw [Spec.InCell, if_pos (lt_of_lt_of_le hy.2 hb)]
    exact ⟨hy.1.le, hy.2⟩
  show P.eval y = Q.eval y
  rw [← hP y hy', ← hQ y hy']

theorem isPiece_piece {t : Nat → K} (ht : Monotone t) (b : K) (p i c : Nat) :
    IsPiece t b p i c (Spec.piece t c p i) := fun _ hy => Spec.bspline_eq_piece ht hy p i

/-- Specification: the array `v` with the index `m` of its first entry lists the derivatives at `x` of
all the polynomial pieces of the B-splines of degree `p` on the interval containing `x`. -/
structure DerivValues (t : Nat → K) (b : K) (p : Nat) (x : K) (m : Nat) (v : Arr K) : Prop where
  size : v.size = p + 1
  cell : Spec.InCell t b x (m + p)
  value : ∀ r, r ≤ p → ∃ P, IsPiece t b p (m + r) (m + p) P ∧ v.val r = some ((derivative P).eval x)
  sum : ∃ l, v.toList = .ok l ∧ l.sum = 0

theorem derivValues_of {t : Nat → K} (ht : Monotone t) {b x : K} {p m : Nat} (hp : 0 < p)
    (hc : Spec.InCell t b x (m + p)) {v : Arr K} (hs : v.size = p + 1)
    (hv : ∀ r, r ≤ p → v.val r = some ((derivative (Spec.piece t (m + p) p (m + r))).eval x)) :
    DerivValues t b p x m v where
  size := hs
  cell := hc
  value r hr := ⟨_, isPiece_piece ht b p (m + r) (m + p), hv r hr⟩
  sum := ⟨_, line_toList hs hv, by
    obtain ⟨q, rfl⟩ : ∃ q, p = q + 1 := ⟨p - 1, by omega⟩
    rw [range_sum]
    have := congrArg (eval x) (Spec.derivative_sum ht (m + (q + 1)) q m rfl)
    rwa [eval_finset_sum, eval_zero] at this⟩

/-- The result of the second part of `eval_deriv`. -/
theorem diffs_deriv {t : Nat → K} (ht : Monotone t) {b x : K} {c : Nat} (hc : Spec.InCell t b x c)
    (p m : Nat) (hp : 0 < p) (hm : c = m + p) (W : Nat → K)
    (hW : ∀ j, j < p → W j = (p : K) * Spec.bspline t b (p - 1) (c - (p - 1) + j) x /
      (t (c + j + 1) - t (c - (p - 1) + j)))
    (r : Nat) (hr : r ≤ p) :
    (derivative (Spec.piece t c p (m + r))).eval x =
      (if r = 0 then 0 else W (r - 1)) - (if r = p then 0 else W r) := by
  obtain ⟨q, rfl⟩ : ∃ q, p = q + 1 := ⟨p - 1, by omega⟩
  rw [Spec.derivative_terms ht hc q m r hm]
  congr 1
  · by_cases h : r = 0
    · rw [if_pos h, if_pos h]
    · rw [if_neg h, if_neg h, hW _ (by omega), show c + (r - 1) + 1 = c + r by omega]
      rfl
  · by_cases h : r = q + 1
    · rw [if_pos h, if_pos h]
    · rw [if_neg h, if_neg h, hW _ (by omega)]
      rfl

/-- Uniform B-splines. -/
theorem C32_uniform_partial [FloorRing K] (p : Nat) (hp : 0 < p) (per : Bool) (a b : K) (hab : a < b)
    (n : Nat) (hn : 0 < n) (hn' : n < 2 ^ 31) (hs : n + 1 + 2 * p < 2 ^ 63) :
    ∃ u, UBS.mk' p per a b (BitVec.ofNat 64 n) = .ok u ∧
      ∀ x, a ≤ x → x ≤ b → ∀ derivs : Arr K, derivs.size = p + 1 →
        ∃ m v, m < n ∧ u.evalDeriv derivs x = .ok (v, el1 (BitVec.ofNat 64 m)) ∧
          DerivValues (Spec.uniformKnot a b n p) b p x m v ∧
          ∀ values : Arr K, values.size = p + 1 →
            ∃ w, u.evalBasis values x = .ok (w, el1 (BitVec.ofNat 64 m)) := by
  refine ⟨_, UBS.mk'_ok hp per hab hn hs, fun x hx1 hx2 derivs hd => ?_⟩
  have hh := step_pos hab (show 1 < n + 1 by omega)
  simp only [Nat.add_sub_cancel] at hh
  obtain ⟨ic, o, h1, h2, _, _, _, h3, h4⟩ := ubs_cell (p := p) (per := per) hab hn hn' hs ⟨hx1, hx2⟩
  have ht := (uniformKnot_strictMono (p := p) hab hn).monotone
  have hst : (ubs p per a b n).knots.step = (b - a) / (n : K) := rfl
  set h := (b - a) / (n : K) with hdef
  obtain ⟨d, e1, hl⟩ := UBS.triangle_ok o (1 / h) (p - 1) (derivs.set 0 (1 / h)) (p + 1) (by omega)
    (by simpa using hd) (by rw [Arr.set_val, if_pos rfl])
  obtain ⟨s, e2, k1, k2, k3⟩ := UBS.diff_ok _ p hp d hl
  have k4 := hl.2 0 (by omega)
  have hguard : decide (derivs.size = (ubs p per a b n).degree + 1) = true := decide_eq_true hd
  have hm : p + ic = ic + p := by omega
  have hW : ∀ j, j < p → tri (uL o) (uR o) (1 / h) (p - 1) j =
      (p : K) * Spec.bspline (Spec.uniformKnot a b n p) b (p - 1) (p + ic - (p - 1) + j) x /
      (Spec.uniformKnot a b n p (p + ic + j + 1) - Spec.uniformKnot a b n p (p + ic - (p - 1) + j)) := by
    intro j hj
    rw [tri_bspline ht h4 (1 / h) (p - 1) (by omega)
      (fun j r hj _ => (ubs_coeffs hab hn h3 j r (by omega)).1)
      (fun j r hj _ => (ubs_coeffs hab hn h3 j r (by omega)).2) (p - 1) j (le_refl _) (by omega)]
    have e : p + ic + j + 1 = (p + ic - (p - 1) + j) + p := by omega
    rw [e, uniformKnot_step]
    have hp0 : (p : K) ≠ 0 := by exact_mod_cast hp.ne'
    have hh0 := hh.ne'
    rw [← hdef, add_sub_cancel_left]
    field_simp
  refine ⟨ic, s.1.set p s.2.1, h2, ?_, ?_, ?_⟩
  · rw [UBS.evalDeriv, hguard, Res.guardAbort_true, Res.ok_bind, h1, Res.ok_bind, hst,
      Arr.wr_ok (by omega), Res.ok_bind, show (ubs p per a b n).degree = p from rfl, e1, Res.ok_bind,
      Arr.rd_ok (by rw [hl.1]; omega) k4, Res.ok_bind, Arr.wr_ok (by rw [hl.1]; omega), Res.ok_bind, e2,
      Res.ok_bind, Arr.wr_ok (by rw [k1]; omega), Res.ok_bind,
      show (ubs p per a b n).ref = el () 0 from rfl, addInt_nat]
    rfl
  · refine derivValues_of ht hp (hm ▸ h4) (by simpa using k1) (fun r hr => ?_)
    rw [diffs_deriv ht (hm ▸ h4) p ic hp rfl (tri (uL o) (uR o) (1 / h) (p - 1)) (by rw [← hm]; exact hW) r hr,
      Arr.set_val]
    by_cases hrp : r = p
    · rw [if_pos hrp, if_pos hrp, if_neg (by omega), k2, hrp, sub_zero]
    · rw [if_neg hrp, if_neg hrp, k3 r (by omega)]
  · intro values hv
    obtain ⟨ic', o', v, g1, e, -⟩ := ubs_evalBasisDeg (per := per) hab hn hn' hs ⟨hx1, hx2⟩ hv
    rw [h1] at g1
    have : ic' = ic := by have := congrArg Prod.fst (Res.ok.inj g1); simp at this; omega
    subst this
    have hd : decide (values.size = (ubs p per a b n).degree + 1) = true := decide_eq_true hv
    exact ⟨v, by rw [UBS.evalBasis, hd]; exact e⟩

/-- `eval_deriv` on B-splines with the knots `t`. -/
theorem nubs_evalDeriv {u : NUBS K} {p n : Nat} {t : Nat → K} (hu : u.Is p n t) (hp : 0 < p)
    (g0 : t p < t (p + 1)) (g1 : t (p + n - 1) < t (p + n)) (x : K) (hx1 : t p ≤ x) (hx2 : x ≤ t (p + n))
    (derivs : Arr K) (hd : derivs.size = p + 1) :
    ∃ m v, m < n ∧ u.evalDeriv derivs x = .ok (v, el1 (BitVec.ofNat 64 m)) ∧
      DerivValues t (t (p + n)) p x m v ∧
      ∀ values : Arr K, values.size = p + 1 →
        ∃ w, u.evalBasis values x = .ok (w, el1 (BitVec.ofNat 64 m)) := by
  have hcl := hu.cells
  obtain ⟨c, e1, h3, h4, h5⟩ := hu.cell g0 g1 ⟨hx1, hx2⟩
  obtain ⟨s, e2, hl⟩ := hu.triangle (x := x) (s0 := 1) h3 h4 (p - 1) (by omega) (derivs.set 0 1) (p + 1)
    (by omega) (by simpa using hd) (by rw [Arr.set_val, if_pos rfl])
  set D := tri (NUBS.nL t x c) (NUBS.nR t x c) 1 (p - 1) with hD
  have hDv : ∀ j, j < p → D j = Spec.bspline t (t (p + n)) (p - 1) (c - (p - 1) + j) x := by
    intro j hj
    rw [hD, tri_bspline (L := NUBS.nL t x c) (R := NUBS.nR t x c) hu.mono h5 1 (p - 1) (by omega)
      (fun j r _ _ => rfl) (fun j r _ _ => rfl) (p - 1) j (le_refl _) (by omega), one_mul]
  let W : Nat → K := fun j => (p : K) * D j / (t (c + j + 1) - t (c + j + 1 - p))
  have hW : ∀ (a : Arr K) j, j < p → j < a.size → a.val j = some (D j) →
      u.derivTerm (BitVec.ofNat 64 c) j a = .ok (W j) := by
    intro a j hj hja hv
    rw [NUBS.derivTerm, Arr.rd_ok hja hv, Res.ok_bind, (hu.sideKnots h3 h4 hj).2, Res.ok_bind,
      ← BitVec.ofNat_add, NUBS.ofNat_succ, hu.degree, ofNat_sub (by omega), hu.knot (by omega)]
    rfl
  obtain ⟨v, e3, k1, k2, k3⟩ := NUBS.diff_ok (u := u) (BitVec.ofNat 64 c) D W p hp hW s.values hl
  have hx := h5.le
  have hab : t p < t (p + n) := lt_of_lt_of_le g0 (hu.mono (by omega))
  have hguard : decide (derivs.size = u.degree + 1) = true := by rw [hu.degree]; exact decide_eq_true hd
  have hcp : c - p + p = c := by omega
  refine ⟨c - p, v.1.set p v.2, by omega, ?_, ?_, ?_⟩
  · rw [NUBS.evalDeriv, hu.rmin, Res.ok_bind, hu.rmax, Res.ok_bind, checkInside_ok hab ⟨hx1, hx2⟩,
      Res.ok_bind, hguard, Res.guardAbort_true, Res.ok_bind, e1, Res.ok_bind, NUBS.uid1_el, Res.ok_bind,
      hu.checkCell h3 h4 hx, Res.ok_bind, Arr.wr_ok (by omega), Res.ok_bind, hu.degree, e2, Res.ok_bind,
      hW s.values 0 hp (by rw [hl.1]; omega) (hl.2 0 (by omega)), Res.ok_bind,
      Arr.wr_ok (by rw [hl.1]; omega), Res.ok_bind, e3, Res.ok_bind, Arr.wr_ok (by rw [k1]; omega),
      Res.ok_bind, hu.firstBspline h3 h4]
    rfl
  · refine derivValues_of hu.mono hp (hcp.symm ▸ h5) (by simpa using k1) (fun r hr => ?_)
    rw [hcp, diffs_deriv hu.mono h5 p (c - p) hp hcp.symm W (fun j hj => by
      show (p : K) * D j / _ = _
      rw [hDv j hj, show c + j + 1 - p = c - (p - 1) + j by omega]) r hr, Arr.set_val]
    by_cases hrp : r = p
    · rw [if_pos hrp, if_pos hrp, if_neg (by omega), k2, hrp, sub_zero]
    · rw [if_neg hrp, if_neg hrp, k3 r (by omega)]
  · intro values hv
    obtain ⟨s, e2, hl⟩ := hu.triangle (x := x) (s0 := 1) h3 h4 p (le_refl _) (values.set 0 1) (p + 1)
      (by omega) (by simpa using hv) (by rw [Arr.set_val, if_pos rfl])
    have hd : decide (values.size = u.degree + 1) = true := by rw [hu.degree]; exact decide_eq_true hv
    refine ⟨s.values, ?_⟩
    rw [NUBS.evalBasis, hd, Res.guardAbort_true, Res.ok_bind, hu.rmin, Res.ok_bind, hu.rmax, Res.ok_bind,
      checkInside_ok hab ⟨hx1, hx2⟩, Res.ok_bind, e1, Res.ok_bind, NUBS.uid1_el, Res.ok_bind,
      hu.checkCell h3 h4 hx, Res.ok_bind, Arr.wr_ok (by omega), Res.ok_bind, hu.degree, e2, Res.ok_bind,
      hu.firstBspline h3 h4]
    rfl

/-- Non-uniform B-splines. -/
theorem C32_non_uniform (p : Nat) (hp : 0 < p) (per : Bool) (breaks : List K) (hb : GoodBreaks breaks)
    (hs : breaks.length + 2 * p < 2 ^ 63) :
    ∃ u t, NUBS.mk' p per breaks = .ok u ∧ Monotone t ∧
      (∀ k, k < breaks.length + 2 * p → u.knots.coordinate (el1 (BitVec.ofNat 64 k)) = .ok (t k)) ∧
      ∀ x, t p ≤ x → x ≤ t (p + (breaks.length - 1)) → ∀ derivs : Arr K, derivs.size = p + 1 →
        ∃ m v, m < breaks.length - 1 ∧ u.evalDeriv derivs x = .ok (v, el1 (BitVec.ofNat 64 m)) ∧
          DerivValues t (t (p + (breaks.length - 1))) p x m v ∧
          ∀ values : Arr K, values.size = p + 1 →
            ∃ w, u.evalBasis values x = .ok (w, el1 (BitVec.ofNat 64 m)) := by
  have h2 := hb.two
  obtain ⟨u, t, e, -, hu, hk⟩ := NUBS.mk'_is hp per hb.two hs hb.sorted hb.lt
  obtain ⟨g0, g1⟩ := goodEnds hb hk
  refine ⟨u, t, e, hu.mono, fun k hk => hu.coord k (by omega), fun x hx1 hx2 derivs hd => ?_⟩
  exact nubs_evalDeriv hu hp g0 g1 x hx1 hx2 derivs hd

/-- Quadratic B-splines on four cells of `[0, 2]`, at `x = 5/4`. -/
example : ((UBS.mk' 2 false (0 : Rat) 2 4 >>= fun u => u.evalDeriv (Arr.uninit 3) (5 / 4)) >>=
    fun r => r.1.toList >>= fun l => .ok (l, r.2)) = .ok ([-1, 0, 1], el1 2) := by decide +kernel

/-- Cells of different lengths. -/
example : ((NUBS.mk' 2 false [(0 : Rat), 1, 3, 4] >>= fun u => u.evalDeriv (Arr.uninit 3) 2) >>=
    fun r => r.1.toList >>= fun l => .ok (l, r.2)) = .ok ([-1 / 3, 0, 1 / 3], el1 1) := by
  decide +kernel

end DDC.Props
