import Verif.Model.Builder
import Verif.Props.C33
import Verif.Props.C36
import Verif.Props.C37b

/-!
# What the builders use of the B-splines, uniform or not
-/

namespace DDC.Props

open One Dom

set_option linter.unusedSectionVars false

variable {K : Type} [Field K] [LinearOrder K] [IsStrictOrderedRing K] [FloorRing K]

/-- B-splines of degree `p` with `n` cells and the knots `t`. -/
structure _root_.DDC.BSpl.Is (bs : BSpl K) (per : Bool) (p n : Nat) (t : Nat → K) : Prop where
  degree : bs.degree = p
  periodic : bs.periodic = per
  pos : 0 < p
  cells : 0 < n
  small : n + 1 + 3 * p < 2 ^ 31
  mono : Monotone t
  first : t p < t (p + 1)
  last : t (p + n - 1) < t (p + n)
  rmin : bs.rmin = .ok (t p)
  rmax : bs.rmax = .ok (t (p + n))
  ncells : bs.ncells = .ok (BitVec.ofNat 64 n)
  nbasis : bs.nbasis = .ok (BitVec.ofNat 64 (if per then n else n + p))
  full : bs.fullDomain = .ok (seg () 0 (n + p))
  breakDom : bs.breakDom = seg () p (p + (n + 1))
  knot : ∀ k, k < n + 1 + 2 * p → bs.knot (el () k) = .ok (t k)
  eval : ∀ x, t p ≤ x → x ≤ t (p + n) → ∀ values : Arr K, values.size = p + 1 →
    ∃ m v, m < n ∧ Spec.InCell t (t (p + n)) x (m + p) ∧
      bs.evalBasis values x = .ok (v, el1 (BitVec.ofNat 64 m)) ∧ BasisValues t (t (p + n)) p x m v
  deriv : ∀ x, t p ≤ x → x ≤ t (p + n) → ∀ derivs : Arr K, derivs.size = p + 1 →
    ∃ m v, m < n ∧ bs.evalDeriv derivs x = .ok (v, el1 (BitVec.ofNat 64 m)) ∧
      DerivValues t (t (p + n)) p x m v
  nderivs : ∀ x, t p ≤ x → x ≤ t (p + n) → ∀ N, N ≤ p / 2 → ∀ derivs : Arr2 K,
    derivs.rows = p + 1 → derivs.cols = N + 1 →
    ∃ m d, m < n ∧ bs.evalNDerivs derivs x N = .ok (d, el1 (BitVec.ofNat 64 m)) ∧
      NDerivValues t (t (p + n)) p x m N d
  allDerivs : ∀ x, t p ≤ x → x ≤ t (p + n) → ∀ N, N ≤ p → (bs.isUniform = true ∨ p.descFactorial N < 2 ^ 31) →
    ∀ derivs : Arr2 K, derivs.rows = p + 1 → derivs.cols = N + 1 →
    ∃ m d, m < n ∧ bs.evalNDerivs derivs x N = .ok (d, el1 (BitVec.ofNat 64 m)) ∧
      NDerivValues t (t (p + n)) p x m N d
  rep : per = true → Spec.Rep t p n

theorem descFactorial_mono {p k N : Nat} (hk : k ≤ N) (hN : N ≤ p) : p.descFactorial k ≤ p.descFactorial N := by
  obtain ⟨d, rfl⟩ : ∃ d, N = k + d := ⟨N - k, by omega⟩
  clear hk
  induction d with
  | zero => exact le_refl _
  | succ d ih =>
    rw [← Nat.add_assoc, Nat.descFactorial_succ]
    exact (ih (by omega)).trans (Nat.le_mul_of_pos_left _ (by omega))

/-- Uniform B-splines. -/
theorem BSpl.is_uniform {p : Nat} (hp : 0 < p) (per : Bool) {a b : K} (hab : a < b) {n : Nat} (hn : 0 < n)
    (hs : n + 1 + 3 * p < 2 ^ 31) :
    ∃ u, UBS.mk' p per a b (BitVec.ofNat 64 n) = .ok u ∧
      (BSpl.uniform u).Is per p n (Spec.uniformKnot a b n p) := by
  have hs' : n + 1 + 2 * p < 2 ^ 63 := by omega
  have hn' : n < 2 ^ 31 := by omega
  have hmono := uniformKnot_strictMono (p := p) hab hn
  have ea : Spec.uniformKnot a b n p p = a := uniformKnot_first ..
  have eb : Spec.uniformKnot a b n p (p + n) = b := uniformKnot_last hn
  have e := UBS.mk'_ok hp per hab hn hs'
  refine ⟨_, e, ⟨rfl, rfl, hp, hn, hs, hmono.monotone, hmono (by omega), hmono (by omega),
    by rw [ea]; exact ubs_rmin hs', by rw [eb]; exact ubs_rmax hn hs', ubs_ncells, ubs_nbasis, ubs_full, rfl,
    fun k hk => ubs_coordinate (by omega), ?_, ?_, ?_, ?_, fun _ => uniform_rep⟩⟩
  · rw [ea, eb]
    intro x hx1 hx2 values hv
    obtain ⟨ic, o, v, -, e, h2, h3, h4, h5⟩ :=
      ubs_evalBasisDeg (per := per) hab hn hn' hs' ⟨hx1, hx2⟩ hv
    obtain ⟨u, e', h⟩ := C30_eval_basis_partial p hp per a b hab n hn hn' hs'
    obtain rfl := Res.ok.inj ((UBS.mk'_ok hp per hab hn hs').symm.trans e')
    obtain ⟨m, v', k1, k2, k3⟩ := h x hx1 hx2 values hv
    have hd : decide (values.size = (ubs p per a b n).degree + 1) = true := decide_eq_true hv
    have k2' := k2
    rw [UBS.evalBasis, hd, Res.guardAbort_true, Res.ok_bind, show (ubs p per a b n).degree = p from rfl, e] at k2'
    have hm : ic = m := by
      have := congrArg Prod.snd (Res.ok.inj k2')
      rw [el1_eq] at this
      have := congrArg BitVec.toNat (congrArg Prod.snd (List.cons.inj this).1)
      simp only [BitVec.toNat_ofNat] at this
      omega
    rw [hm, Nat.add_comm] at h4
    exact ⟨m, v', k1, h4, k2, k3⟩
  · rw [ea, eb]
    obtain ⟨u, e', h⟩ := C32_uniform_partial p hp per a b hab n hn hn' hs'
    obtain rfl := Res.ok.inj (e.symm.trans e')
    intro x h1 h2 d hd
    obtain ⟨m, v, g1, g2, g3, -⟩ := h x h1 h2 d hd
    exact ⟨m, v, g1, g2, g3⟩
  · rw [ea, eb]
    obtain ⟨u, e', h⟩ := C33_uniform_partial p hp per a b hab n hn hn' hs'
    obtain rfl := Res.ok.inj (e.symm.trans e')
    exact fun x h1 h2 N hN d hr hc => h x h1 h2 N (by omega) d hr hc
  · rw [ea, eb]
    obtain ⟨u, e', h⟩ := C33_uniform_partial p hp per a b hab n hn hn' hs'
    obtain rfl := Res.ok.inj (e.symm.trans e')
    exact fun x h1 h2 N hN _ d hr hc => h x h1 h2 N hN d hr hc

/-- The factors of the derivatives that the builders need can be computed by the code. -/
def SmallFactors (p : Nat) : Prop := p ≤ 12 ∨ p.descFactorial (p / 2) < 2 ^ 31

theorem SmallFactors.lt {p : Nat} (h : SmallFactors p) {k : Nat} (hk : k ≤ p / 2) :
    p.descFactorial k < 2 ^ 31 := by
  rcases h with h | h
  · have a1 : p.descFactorial k ≤ p.factorial := by
      rw [← Nat.factorial_mul_descFactorial (show k ≤ p by omega)]
      exact Nat.le_mul_of_pos_left _ (Nat.factorial_pos _)
    have a2 : p.factorial ≤ Nat.factorial 12 := Nat.factorial_le h
    have a3 : Nat.factorial 12 < 2 ^ 31 := by decide
    omega
  · exact lt_of_le_of_lt (descFactorial_mono hk (by omega)) h

theorem BSpl.is_of_nubs {p : Nat} (hp : 0 < p) {per : Bool} {breaks : List K} (hb : GoodBreaks breaks)
    (hs : breaks.length + 3 * p < 2 ^ 31) (hf : SmallFactors p) {u : NUBS K} {t : Nat → K} (hper : u.periodic = per)
    (hu : u.Is p (breaks.length - 1) t) (hk : NUBS.KnotsOf p per breaks t) :
    (BSpl.nonUniform u).Is per p (breaks.length - 1) t := by
  have h2 := hb.two
  obtain ⟨g0, g1⟩ := goodEnds hb hk
  refine ⟨hu.degree, hper, hp, by omega, by omega, hu.mono, g0, g1, hu.rmin, hu.rmax, hu.ncells,
    by rw [← hper]; exact nubs_nbasis hu, nubs_full hu, hu.breakDom, hu.coord, ?_, ?_, ?_, ?_, fun hpe k hk' => hk.periodic hpe k hk'⟩
  · intro x h1 h2 v hv
    exact nubs_evalBasis hu g0 g1 x h1 h2 v hv
  · intro x h1 h2 v hv
    obtain ⟨m, v, k1, k2, k3, -⟩ := nubs_evalDeriv hu hp g0 g1 x h1 h2 v hv
    exact ⟨m, v, k1, k2, k3⟩
  · intro x hx1 hx2 N hN d hr hc
    obtain ⟨m, d, h1, h2, h3, h4, h5, h6⟩ := nubs_nderivs hu g0 g1 x hx1 hx2 N (by omega) d hr hc
    refine ⟨m, d, h1, h2, h3, h4, h5, fun r k hr hk =>
      ⟨_, isPiece_piece hu.mono _ p (m + r) (m + p), ?_⟩⟩
    obtain ⟨y, e1, e2⟩ := h6 r k hr hk
    rw [e1, e2, NDer.factor_eq (hf.lt (by omega))]
    simp
  · intro x hx1 hx2 N hN hf' d hr hc
    obtain ⟨m, d, h1, h2, h3, h4, h5, h6⟩ := nubs_nderivs hu g0 g1 x hx1 hx2 N (by omega) d hr hc
    refine ⟨m, d, h1, h2, h3, h4, h5, fun r k hr hk =>
      ⟨_, isPiece_piece hu.mono _ p (m + r) (m + p), ?_⟩⟩
    obtain ⟨y, e1, e2⟩ := h6 r k hr hk
    rw [e1, e2, NDer.factor_eq (lt_of_le_of_lt (descFactorial_mono hk hN) (hf'.resolve_left (by simp [BSpl.isUniform])))]
    simp

/-- Non-uniform B-splines. -/
theorem BSpl.is_nonUniform {p : Nat} (hp : 0 < p) (per : Bool) {breaks : List K} (hb : GoodBreaks breaks)
    (hs : breaks.length + 3 * p < 2 ^ 31) (hf : SmallFactors p) :
    ∃ u t, NUBS.mk' p per breaks = .ok u ∧ (BSpl.nonUniform u).Is per p (breaks.length - 1) t ∧
      NUBS.KnotsOf p per breaks t := by
  obtain ⟨u, t, e, hper, hu, hk⟩ := NUBS.mk'_is hp per hb.two (by omega) hb.sorted hb.lt
  exact ⟨u, t, e, BSpl.is_of_nubs hp hb hs hf hper hu hk, hk⟩

variable {bs : BSpl K} {per : Bool} {p n : Nat} {t : Nat → K}

/-- The lower end is in the first cell, the upper end in the last one. -/
theorem _root_.DDC.BSpl.Is.cell_first (h : bs.Is per p n t) : Spec.InCell t (t (p + n)) (t p) p := by
  have := h.cells
  rw [Spec.InCell, if_pos (lt_of_lt_of_le h.first (h.mono (by omega)))]
  exact ⟨le_refl _, h.first⟩

theorem _root_.DDC.BSpl.Is.cell_last (h : bs.Is per p n t) : Spec.InCell t (t (p + n)) (t (p + n)) (p + n - 1) := by
  have := h.cells
  rw [Spec.InCell, if_neg (lt_irrefl _), show p + n - 1 + 1 = p + n by omega]
  exact ⟨h.last, le_refl _⟩

theorem _root_.DDC.BSpl.Is.ends (h : bs.Is per p n t) : t p < t (p + n) := by
  have := h.cells
  exact lt_of_lt_of_le h.first (h.mono (by omega))

open Polynomial in
/-- The derivatives, with the polynomial pieces. -/
theorem _root_.DDC.BSpl.Is.nderivs_piece (h : bs.Is per p n t) {x : K} {c : Nat} (hx : Spec.InCell t (t (p + n)) x c)
    (h1 : t p ≤ x) (h2 : x ≤ t (p + n)) {N : Nat} (hN : N ≤ p / 2) (derivs : Arr2 K)
    (hr : derivs.rows = p + 1) (hc : derivs.cols = N + 1) :
    p ≤ c ∧ ∃ d, bs.evalNDerivs derivs x N = .ok (d, el1 (BitVec.ofNat 64 (c - p))) ∧ d.rows = p + 1 ∧
      d.cols = N + 1 ∧ ∀ r k : Nat, r ≤ p → k ≤ N →
        d.val r k = some ((derivative^[k] (Spec.piece t c p (c - p + r))).eval x) := by
  obtain ⟨m, d, h3, h4, h5⟩ := h.nderivs x h1 h2 N hN derivs hr hc
  have hm : c = m + p := hx.unique h.mono h5.cell
  subst hm
  refine ⟨by omega, d, by rw [Nat.add_sub_cancel]; exact h4, h5.rows, h5.cols, fun r k hr hk => ?_⟩
  obtain ⟨P, hP, e⟩ := h5.value r k hr hk
  have hb : t (m + p + 1) ≤ t (p + n) := h.mono (by omega)
  rw [e, Nat.add_sub_cancel,
    IsPiece.unique h5.cell.lt hb hP (isPiece_piece h.mono _ p (m + r) (m + p))]

open Polynomial in
/-- The first B-spline that starts at a knot of a cell is a power of the distance to it. -/
theorem piece_start (t : Nat → K) (c p : Nat) : ∃ a, Spec.piece t c p c = C a * (X - C (t c)) ^ p := by
  induction p with
  | zero => exact ⟨1, by rw [Spec.piece, if_pos rfl]; simp⟩
  | succ p ih =>
    obtain ⟨a, e⟩ := ih
    refine ⟨1 / (t (c + p + 1) - t c) * a, ?_⟩
    rw [Spec.piece, e, Spec.piece_zero t c p (c + 1) (by omega), C_mul]
    ring

open Polynomial in
theorem piece_stop (t : Nat → K) (p i : Nat) :
    ∃ a, Spec.piece t (i + p) p i = C a * (X - C (t (i + p + 1))) ^ p := by
  induction p generalizing i with
  | zero => exact ⟨1, by simp [Spec.piece]⟩
  | succ p ih =>
    obtain ⟨a, e⟩ := ih (i + 1)
    refine ⟨- (1 / (t (i + p + 2) - t (i + 1))) * a, ?_⟩
    have e' : Spec.piece t (i + (p + 1)) p (i + 1) = C a * (X - C (t (i + p + 2))) ^ p := by
      rw [show i + (p + 1) = i + 1 + p by omega, e, show i + 1 + p + 1 = i + p + 2 by omega]
    rw [Spec.piece, e', Spec.piece_zero t (i + (p + 1)) p i (by omega), C_mul, C_neg,
      show i + (p + 1) + 1 = i + p + 2 by omega]
    ring

open Polynomial in
theorem deriv_pow_zero (a y : K) {p k : Nat} (hk : k < p) :
    (derivative^[k] (C a * (X - C y) ^ p)).eval y = 0 := by
  rw [Polynomial.iterate_derivative_C_mul, Polynomial.iterate_derivative_X_sub_pow]
  simp [Nat.sub_ne_zero_of_lt hk]

end DDC.Props
