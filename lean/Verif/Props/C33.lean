import Verif.Lemmas.NDerivs
import Verif.Props.C32

/-!
# C33 — `eval_basis_and_n_derivs` returns the derivatives of all orders
-/

namespace DDC.Props

open One Polynomial

set_option linter.unusedSectionVars false

variable {K : Type} [Field K] [LinearOrder K] [IsStrictOrderedRing K]

/-- Specification: the entry `(r, k)` of the array is the derivative of order `k` at `x` of the
polynomial piece of the B-spline `m + r` on the interval containing `x`. -/
structure NDerivValues (t : Nat → K) (b : K) (p : Nat) (x : K) (m n : Nat) (d : Arr2 K) : Prop where
  rows : d.rows = p + 1
  cols : d.cols = n + 1
  cell : Spec.InCell t b x (m + p)
  value : ∀ r k : Nat, r ≤ p → k ≤ n →
    ∃ P, IsPiece t b p (m + r) (m + p) P ∧ d.val r k = some ((derivative^[k] P).eval x)

/-- The sums computed by the loops, with the right factors. -/
theorem sum_deriv {t : Nat → K} (ht : Monotone t) (x : K) (c p i k : Nat) (hk : k ≤ p) :
    (derivative^[k] (Spec.piece t c p i)).eval x = ((p.descFactorial k : Nat) : K) *
      ∑ j ∈ Finset.range (k + 1), Spec.dcoef (Spec.weight t p i) k j *
        (Spec.piece t c (p - k) (i + j)).eval x := by
  rw [Spec.derivative_iterate ht c p i k hk, eval_mul, eval_C, eval_finset_sum]
  simp only [eval_mul, eval_C]

/-- The rows of the array before the multiplication: row 0 is the copy of the values. -/
theorem merge_rows {p n : Nat} {d0 d : Arr2 K} {T : Nat → K} {S : Nat → Nat → K}
    (h0 : ∀ r : Nat, r ≤ p → d0.val r 0 = some (T r))
    (hd : ∀ i k : Nat, d.val i k = if i ≤ p ∧ 1 ≤ k ∧ k ≤ n then some (S i k) else d0.val i k)
    (i k : Nat) (hi : i ≤ p) (hk : k ≤ n) :
    d.val i k = some (if k = 0 then T i else S i k) := by
  rw [hd]
  by_cases h : k = 0
  · subst h
    rw [if_neg (by omega), if_pos rfl]
    exact h0 i hi
  · rw [if_pos ⟨hi, by omega, hk⟩, if_neg h]

theorem bind_of {α β γ : Type} {x : Res α} {g : α → Res β} {y : β} (h : x >>= g = .ok y) (f : β → Res γ) :
    (x >>= fun a => g a >>= f) = f y := by
  cases x with
  | ok a => rw [Res.ok_bind] at h ⊢; rw [h, Res.ok_bind]
  | _ => exact absurd h (by simp)

/-- Uniform B-splines. -/
theorem C33_uniform_partial [FloorRing K] (p : Nat) (hp : 0 < p) (per : Bool) (a b : K) (hab : a < b)
    (n : Nat) (hn : 0 < n) (hn' : n < 2 ^ 31) (hs : n + 1 + 2 * p < 2 ^ 63) :
    ∃ u, UBS.mk' p per a b (BitVec.ofNat 64 n) = .ok u ∧
      ∀ x, a ≤ x → x ≤ b → ∀ N, N ≤ p → ∀ derivs : Arr2 K, derivs.rows = p + 1 → derivs.cols = N + 1 →
        ∃ m d, m < n ∧ u.evalBasisAndNDerivs derivs x N = .ok (d, el1 (BitVec.ofNat 64 m)) ∧
          NDerivValues (Spec.uniformKnot a b n p) b p x m N d := by
  refine ⟨_, UBS.mk'_ok hp per hab hn hs, fun x hx1 hx2 N hN derivs hdr hdc => ?_⟩
  have hh := step_pos hab (show 1 < n + 1 by omega)
  simp only [Nat.add_sub_cancel] at hh
  obtain ⟨ic, o, h1, h2, _, _, _, h3, h4⟩ := ubs_cell (p := p) (per := per) hab hn hn' hs ⟨hx1, hx2⟩
  have ht := (uniformKnot_strictMono (p := p) hab hn).monotone
  have hst : (ubs p per a b n).invStep = 1 / ((b - a) / (n : K)) := rfl
  set h := (b - a) / (n : K) with hdef
  set t := Spec.uniformKnot a b n p with htdef
  have hcm : p + ic = ic + p := by omega
  rw [hcm] at h4
  obtain ⟨ndu, e1, hl⟩ := UBS.ndu_ok o p
  have hT : ∀ j r, j ≤ p → r ≤ j → tri (uL o) (uR o) 1 j r = Spec.bspline t b j (ic + p - j + r) x := by
    intro j r hj hr
    rw [tri_bspline ht h4 1 p (by omega)
      (fun j r hj _ => by rw [← hcm]; exact (ubs_coeffs hab hn h3 j r (by omega)).1)
      (fun j r hj _ => by rw [← hcm]; exact (ubs_coeffs hab hn h3 j r (by omega)).2) j r hj hr, one_mul]
  obtain ⟨d1, e2, k1, k2, k3⟩ := NDer.copy_ok (n := N) (T := tri (uL o) (uR o) 1 p) (by omega) hl.rows hl.cols
    (fun r hr => hl.val p r (le_refl _) hr) rfl derivs hdr hdc
  let w : Nat → Nat → K := fun k _ => 1 / (((p : Int) - (k : Int) + 1 : Int) : K)
  obtain ⟨s, e3, l1, l2, l3⟩ := NDer.splines_ok
    (wt := fun pk _ => .ok (1 / ((pk + 1 : Int) : K)))
    (P := fun r k j => (Spec.piece t (ic + p) (p - k) (ic + r + j)).eval x) (w := fun _ => w)
    (fun r hr => NDer.data_of (w := w) ht h4 rfl hl hT r (fun k j _ _ _ => rfl)) N hN
    (Arr2.uninit (p + 1) 2, d1) rfl rfl k1 k2
  obtain ⟨s', e4, m1, m2, m3⟩ := NDer.ubs_scale_ok (1 / h) l1 l2 hN (merge_rows k3 l3)
  refine ⟨ic, s'.1, h2, ?_, m1, m2, h4, fun r k hr hk =>
    ⟨Spec.piece t (ic + p) p (ic + r), isPiece_piece ht b p (ic + r) (ic + p), ?_⟩⟩
  · have g1 : decide (N ≤ p) = true := decide_eq_true hN
    have g2 : decide (derivs.rows = 1 + p) = true := decide_eq_true (by omega)
    have g3 : decide (derivs.cols = 1 + N) = true := decide_eq_true (by omega)
    have e1' : ∀ {β} (f : Arr2 K → Res β), ((Arr2.uninit (p + 1) (p + 1)).wr 0 0 1 >>= fun ndu =>
        forLoop (UBS.nduOuter o) 1 p ndu >>= f) = f ndu := by
      intro β f
      exact bind_of e1 f
    simp only [UBS.evalBasisAndNDerivs, show (ubs p per a b n).degree = p from rfl, ubs_rmin hs,
      ubs_rmax hn hs, Res.ok_bind, checkInside_ok hab ⟨hx1, hx2⟩, g1, g2, g3, Res.guardAbort_true, h1,
      hst, hl.cols]
    rw [e1', hl.cols, e2, Res.ok_bind, NDer.ubs_spline, e3, Res.ok_bind, e4, Res.ok_bind,
      show (ubs p per a b n).ref = el () 0 from rfl, addInt_nat]
    rfl
  · rw [m3 r k hr hk, sum_deriv ht _ _ _ _ _ (by omega)]
    congr 1
    by_cases hk0 : k = 0
    · subst hk0
      rw [if_pos rfl, hT p r (le_refl _) hr, Spec.bspline_eq_piece ht h4]
      simp [Spec.dcoef]
    · rw [if_neg hk0]
      have hw : ∀ k j, 1 ≤ k → k ≤ p → w k j = h * Spec.weight t p (ic + r) k j := by
        intro k j hk1 hk2
        simp only [w, Spec.weight]
        have hq : ((p - k + 1 : Nat) : K) ≠ 0 := by exact_mod_cast Nat.succ_ne_zero (p - k)
        have e : (((p : Int) - (k : Int) + 1 : Int) : K) = ((p - k + 1 : Nat) : K) := by
          rw [← Int.cast_natCast (R := K)]; congr 1; omega
        rw [add_assoc (ic + r + j), htdef, uniformKnot_step, ← hdef, add_sub_cancel_left, e]
        have := hh.ne'
        field_simp
      rw [Finset.sum_congr rfl (fun j _ => by rw [Spec.dcoef_scale hw k j (by omega), mul_assoc]),
        ← Finset.mul_sum, one_div, inv_pow]
      have : h ^ k ≠ 0 := pow_ne_zero _ hh.ne'
      field_simp

/-- What the non-uniform `eval_basis_and_n_derivs` computes: the derivatives of order `k` with the factor
`p! / (p - k)!` replaced by its value as an `int`. -/
theorem nubs_nderivs {u : NUBS K} {p n : Nat} {t : Nat → K} (hu : u.Is p n t) (g0 : t p < t (p + 1))
    (g1 : t (p + n - 1) < t (p + n)) (x : K) (hx1 : t p ≤ x) (hx2 : x ≤ t (p + n)) (N : Nat)
    (hN : N ≤ p) (derivs : Arr2 K) (hdr : derivs.rows = p + 1) (hdc : derivs.cols = N + 1) :
    ∃ m d, m < n ∧ u.evalBasisAndNDerivs derivs x N = .ok (d, el1 (BitVec.ofNat 64 m)) ∧
      d.rows = p + 1 ∧ d.cols = N + 1 ∧ Spec.InCell t (t (p + n)) x (m + p) ∧
      ∀ r k : Nat, r ≤ p → k ≤ N → ∃ y, d.val r k = some (y * ((NDer.factor p k : Int) : K)) ∧
        (derivative^[k] (Spec.piece t (m + p) p (m + r))).eval x = y * ((p.descFactorial k : Nat) : K) := by
  have hcl := hu.cells
  obtain ⟨c, e0, h3, h4, h5⟩ := hu.cell g0 g1 ⟨hx1, hx2⟩
  obtain ⟨ndu, e1, hl, hinv⟩ := hu.ndu_ok (x := x) h3 h4
  have hx := h5.le
  have hab : t p < t (p + n) := lt_of_lt_of_le g0 (hu.mono (by omega))
  have hcp : c = c - p + p := by omega
  have hT : ∀ j r, j ≤ p → r ≤ j → tri (NUBS.nL t x c) (NUBS.nR t x c) 1 j r =
      Spec.bspline t (t (p + n)) j (c - j + r) x := by
    intro j r hj hr
    rw [tri_bspline (L := NUBS.nL t x c) (R := NUBS.nR t x c) hu.mono h5 1 p (by omega)
      (fun j r _ _ => rfl) (fun j r _ _ => rfl) j r hj hr, one_mul]
  obtain ⟨d1, e2, k1, k2, k3⟩ := NDer.copy_ok (n := N) (T := tri (NUBS.nL t x c) (NUBS.nR t x c) 1 p)
    (by omega) hl.rows hl.cols (fun r hr => hl.val p r (le_refl _) hr) rfl derivs hdr hdc
  obtain ⟨s, e3, l1, l2, l3⟩ := NDer.splines_ok
    (wt := fun pk i => ndu.ndu.rd i (pk + 1))
    (P := fun r k j => (Spec.piece t c (p - k) (c - p + r + j)).eval x)
    (w := fun r => Spec.weight t p (c - p + r))
    (fun r hr => NDer.data_of (w := Spec.weight t p (c - p + r)) hu.mono h5 hcp hl hT r
      (fun k j hk1 hk2 hn => by
        obtain ⟨n1, n2, n3⟩ := hn
        have q1 : (p : Int) - k + 1 = ((p - k + 1 : Nat) : Int) := by omega
        have q2 : (r : Int) - k + j = ((r + j - k : Nat) : Int) := by omega
        have hrows := hl.rows
        have hcols := hl.cols
        rw [q1, q2, Arr2.rd_ok ⟨by omega, by omega, by omega, by omega⟩
          (hinv (p - k) (r + j - k) (by omega) (by omega)), Spec.weight]
        rw [show c + (r + j - k) + 1 = c - p + r + j + (p - k) + 1 by omega,
          show c - (p - k) + (r + j - k) = c - p + r + j by omega])) N hN
    (Arr2.uninit (p + 1) 2, d1) rfl rfl k1 k2
  obtain ⟨s', e4, m1, m2, m3⟩ := NDer.nubs_scale_ok l1 l2 hN (merge_rows k3 l3)
  refine ⟨c - p, s'.1, by omega, ?_, m1, m2, hcp ▸ h5, fun r k hr hk => ⟨_, m3 r k hr hk, ?_⟩⟩
  · have g1 : decide (N ≤ p) = true := decide_eq_true hN
    have g2 : decide (derivs.rows = 1 + p) = true := decide_eq_true (by omega)
    have g3 : decide (derivs.cols = 1 + N) = true := decide_eq_true (by omega)
    have e1' : ∀ {β} (f : NUBS.NduState K → Res β),
        ((Arr2.uninit (p + 1) (p + 1)).wr 0 0 1 >>= fun ndu =>
        forLoop (u.nduOuter (BitVec.ofNat 64 c) x) 0 p ⟨ndu, Arr.uninit p, Arr.uninit p⟩ >>= f) = f ndu := by
      intro β f
      exact bind_of e1 f
    simp only [NUBS.evalBasisAndNDerivs, hu.degree, hu.rmin, hu.rmax, Res.ok_bind,
      checkInside_ok hab ⟨hx1, hx2⟩, g1, g2, g3, Res.guardAbort_true, e0, NUBS.uid1_el,
      hu.checkCell h3 h4 hx]
    rw [e1', e2, Res.ok_bind, NDer.nubs_spline, e3, Res.ok_bind, e4, Res.ok_bind, hu.firstBspline h3 h4]
    rfl
  · rw [← hcp, sum_deriv hu.mono _ _ _ _ _ (by omega), mul_comm]
    congr 1
    by_cases hk0 : k = 0
    · subst hk0
      rw [if_pos rfl, hT p r (le_refl _) hr, Spec.bspline_eq_piece hu.mono h5]
      simp [Spec.dcoef]
    · rw [if_neg hk0]

/-- Non-uniform B-splines: the factors `p! / (p - k)!` have to be of type `int`.  This is the case for
all the orders if `p ≤ 12`. -/
theorem C33_non_uniform_partial (p : Nat) (hp : 0 < p) (per : Bool) (breaks : List K)
    (hb : GoodBreaks breaks) (hs : breaks.length + 2 * p < 2 ^ 63) :
    ∃ u t, NUBS.mk' p per breaks = .ok u ∧ Monotone t ∧
      (∀ k, k < breaks.length + 2 * p → u.knots.coordinate (el1 (BitVec.ofNat 64 k)) = .ok (t k)) ∧
      ∀ x, t p ≤ x → x ≤ t (p + (breaks.length - 1)) → ∀ N, N ≤ p →
        (p ≤ 12 ∨ ∀ k, k ≤ N → p.descFactorial k < 2 ^ 31) →
        ∀ derivs : Arr2 K, derivs.rows = p + 1 → derivs.cols = N + 1 →
        ∃ m d, m < breaks.length - 1 ∧
          u.evalBasisAndNDerivs derivs x N = .ok (d, el1 (BitVec.ofNat 64 m)) ∧
          NDerivValues t (t (p + (breaks.length - 1))) p x m N d := by
  have h2 := hb.two
  obtain ⟨u, t, e, -, hu, hk⟩ := NUBS.mk'_is hp per hb.two hs hb.sorted hb.lt
  obtain ⟨g0, g1⟩ := goodEnds hb hk
  refine ⟨u, t, e, hu.mono, fun k hk => hu.coord k (by omega), fun x hx1 hx2 N hN hf derivs hdr hdc => ?_⟩
  obtain ⟨m, d, h1, h2, h3, h4, h5, h6⟩ := nubs_nderivs hu g0 g1 x hx1 hx2 N hN derivs hdr hdc
  refine ⟨m, d, h1, h2, h3, h4, h5, fun r k hr hk =>
    ⟨_, isPiece_piece hu.mono _ p (m + r) (m + p), ?_⟩⟩
  obtain ⟨y, e1, e2⟩ := h6 r k hr hk
  have hlt : p.descFactorial k < 2 ^ 31 := by
    rcases hf with hf | hf
    · have a1 : p.descFactorial k ≤ p.factorial := by
        rw [← Nat.factorial_mul_descFactorial (show k ≤ p by omega)]
        exact Nat.le_mul_of_pos_left _ (Nat.factorial_pos _)
      have a2 : p.factorial ≤ Nat.factorial 12 := Nat.factorial_le hf
      have a3 : Nat.factorial 12 < 2 ^ 31 := by decide
      omega
    · exact hf k hk
  rw [e1, e2, NDer.factor_eq hlt]
  simp

/-- The restriction is needed: for B-splines of degree 13, the last factor is reduced modulo `2^32` and
the derivatives of order 13 (which are not all zero) are wrong. -/
theorem C33_factor_overflow (per : Bool) (breaks : List K) (hb : GoodBreaks breaks)
    (hs : breaks.length + 2 * 13 < 2 ^ 63) :
    ∃ u t, NUBS.mk' 13 per breaks = .ok u ∧ Monotone t ∧
      (∀ k, k < breaks.length + 2 * 13 → u.knots.coordinate (el1 (BitVec.ofNat 64 k)) = .ok (t k)) ∧
      ∀ x, t 13 ≤ x → x ≤ t (13 + (breaks.length - 1)) →
        ∀ derivs : Arr2 K, derivs.rows = 14 → derivs.cols = 14 →
        ∃ m d, u.evalBasisAndNDerivs derivs x 13 = .ok (d, el1 (BitVec.ofNat 64 m)) ∧
          Spec.InCell t (t (13 + (breaks.length - 1))) x (m + 13) ∧
          ∀ r : Nat, r ≤ 13 → ∃ P y, IsPiece t (t (13 + (breaks.length - 1))) 13 (m + r) (m + 13) P ∧
            (derivative^[13] P).eval x = y * 6227020800 ∧ d.val r 13 = some (y * 1932053504) := by
  have h2 := hb.two
  obtain ⟨u, t, e, -, hu, hk⟩ := NUBS.mk'_is (p := 13) (by omega) per hb.two hs hb.sorted hb.lt
  obtain ⟨g0, g1⟩ := goodEnds hb hk
  refine ⟨u, t, e, hu.mono, fun k hk => hu.coord k (by omega), fun x hx1 hx2 derivs hdr hdc => ?_⟩
  obtain ⟨m, d, h1, h2, h3, h4, h5, h6⟩ := nubs_nderivs hu g0 g1 x hx1 hx2 13 (le_refl _) derivs hdr hdc
  refine ⟨m, d, h2, h5, fun r hr => ?_⟩
  obtain ⟨y, e1, e2⟩ := h6 r 13 hr (le_refl _)
  refine ⟨_, y, isPiece_piece hu.mono _ 13 (m + r) (m + 13), ?_, ?_⟩
  · rw [e2, show Nat.descFactorial 13 13 = 6227020800 by decide]; norm_num
  · rw [show (13 : Int) = ((13 : Nat) : Int) from rfl, e1,
      show NDer.factor 13 13 = 1932053504 by decide]; norm_num

/-- The rows 0 and 1 agree with `eval_basis` and `eval_deriv`: all three specifications determine the
values and the index. -/
theorem C33_rows_agree {t : Nat → K} (ht : Monotone t) {b x : K} {p : Nat} {m m' m'' N : Nat} {d : Arr2 K} {v w : Arr K}
    (hd : NDerivValues t b p x m N d) (hb : t (m + p + 1) ≤ b) (hv : BasisValues t b p x m' v)
    (hw : DerivValues t b p x m'' w) :
    m'' = m ∧ (m' = m → ∀ r : Nat, r ≤ p → d.val r 0 = v.val r) ∧
      (1 ≤ N → ∀ r : Nat, r ≤ p → d.val r 1 = w.val r) := by
  have hm : m'' = m := by
    have := hd.cell.unique ht hw.cell
    omega
  subst hm
  refine ⟨rfl, ?_, fun hN r hr => ?_⟩
  · rintro rfl r hr
    obtain ⟨P, h1, h2⟩ := hd.value r 0 hr (by omega)
    rw [hv.value r hr, h1 x hd.cell]
    exact h2
  · obtain ⟨P, h1, h2⟩ := hd.value r 1 hr hN
    obtain ⟨Q, h3, h4⟩ := hw.value r hr
    rw [h4, h3.unique hd.cell.lt hb h1]
    exact h2

/-- An order larger than the degree or an array of the wrong extents abort. -/
theorem C33_uniform_requires [FloorRing K] (p : Nat) (hp : 0 < p) (per : Bool) (a b : K) (hab : a < b)
    (n : Nat) (hn : 0 < n) (hs : n + 1 + 2 * p < 2 ^ 63) (u : UBS K)
    (hu : UBS.mk' p per a b (BitVec.ofNat 64 n) = .ok u) (x : K) (hx1 : a ≤ x) (hx2 : x ≤ b) (N : Nat)
    (derivs : Arr2 K) (h : p < N ∨ derivs.rows ≠ p + 1 ∨ derivs.cols ≠ N + 1) :
    u.evalBasisAndNDerivs derivs x N = .abort := by
  obtain rfl := ubs_of_mk hp hab hn hs hu
  simp only [UBS.evalBasisAndNDerivs, show (ubs p per a b n).degree = p from rfl, ubs_rmin hs,
      ubs_rmax hn hs, Res.ok_bind, checkInside_ok hab ⟨hx1, hx2⟩]
  by_cases h1 : N ≤ p
  · by_cases h2 : derivs.rows = 1 + p
    · have h3 : ¬ derivs.cols = 1 + N := by omega
      simp [h1, h2, h3, Res.guardAbort]
    · simp [h1, h2, Res.guardAbort]
  · simp [h1, Res.guardAbort]

theorem C33_non_uniform_requires (p : Nat) (hp : 0 < p) (per : Bool) (breaks : List K)
    (hb : GoodBreaks breaks) (hs : breaks.length + 2 * p < 2 ^ 63) (u : NUBS K)
    (hu : NUBS.mk' p per breaks = .ok u) (x a b : K) (ha : breaks[0]? = some a)
    (hb' : breaks[breaks.length - 1]? = some b) (hx1 : a ≤ x) (hx2 : x ≤ b) (N : Nat)
    (derivs : Arr2 K) (h : p < N ∨ derivs.rows ≠ p + 1 ∨ derivs.cols ≠ N + 1) :
    u.evalBasisAndNDerivs derivs x N = .abort := by
  have h2 := hb.two
  obtain ⟨u', t, e, -, hu', hk⟩ := NUBS.mk'_is hp per hb.two hs hb.sorted hb.lt
  rw [hu] at e
  obtain rfl := Res.ok.inj e
  rw [List.getElem?_eq_getElem (by omega)] at ha hb'
  have ea : t p = a := by
    have := hk.inner 0 (by omega)
    rw [Nat.add_zero] at this
    rw [this]; exact Option.some.inj ha
  have eb : t (p + (breaks.length - 1)) = b := by
    rw [hk.inner _ (by omega)]; exact Option.some.inj hb'
  have hab : a < b := by
    have := hb.lt
    rw [← Option.some.inj ha, ← Option.some.inj hb']; exact this
  simp only [NUBS.evalBasisAndNDerivs, hu'.degree, hu'.rmin, hu'.rmax, ea, eb, Res.ok_bind,
    checkInside_ok hab ⟨hx1, hx2⟩]
  by_cases h1 : N ≤ p
  · by_cases h2 : derivs.rows = 1 + p
    · have h3 : ¬ derivs.cols = 1 + N := by omega
      simp [h1, h2, h3, Res.guardAbort]
    · simp [h1, h2, Res.guardAbort]
  · simp [h1, Res.guardAbort]

/-- Entries of an array, for the examples. -/
def entries (r : Res (Arr2 Rat × Elem Unit)) (p n : Nat) : Res (List (List Rat) × Elem Unit) := do
  let d ← r
  let l ← (List.range (p + 1)).mapM (fun i => (List.range (n + 1)).mapM (fun k => d.1.rd i k))
  pure (l, d.2)

/-- Quadratic B-splines on four cells of `[0, 2]`, at `x = 5/4`. -/
example : entries (UBS.mk' 2 false (0 : Rat) 2 4 >>= fun u =>
      u.evalBasisAndNDerivs (Arr2.uninit 3 3) (5 / 4) 2) 2 2 =
    .ok ([[1 / 8, -1, 4], [3 / 4, 0, -8], [1 / 8, 1, 4]], el1 2) := by decide +kernel

/-- Cells of different lengths. -/
example : entries (NUBS.mk' 2 false [(0 : Rat), 1, 3, 4] >>= fun u =>
      u.evalBasisAndNDerivs (Arr2.uninit 3 3) 2 2) 2 2 =
    .ok ([[1 / 6, -1 / 3, 1 / 3], [2 / 3, 0, -2 / 3], [1 / 6, 1 / 3, 1 / 3]], el1 1) := by decide +kernel

/-- The witness for the overflow: on the single cell `[0, 1]`, the first B-spline of degree 13 is
`(1 - x) ^ 13`; its derivative of order 13 is `-13! = -6227020800`. -/
example : (NUBS.mk' 13 false [(0 : Rat), 1] >>= fun u =>
      u.evalBasisAndNDerivs (Arr2.uninit 14 14) 0 13 >>= fun r => r.1.rd 0 13) =
    .ok (-1932053504) := by decide +kernel

end DDC.Props
