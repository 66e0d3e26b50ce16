import Verif.Props.C41b
import Verif.Props.C39b

/-!
# C41, continued: interpolation up to the entries that the code drops

`C41_interpolates_partial` excludes matrices with small entries, because the code drops entries below
`1e-15` (`set_element` out of the band) and `1e-14` (`dense2coo`).  Here they are allowed: the spline
satisfies every condition up to an explicit multiple of the sum of its coefficients, the order of
magnitude of the tolerances.
-/

set_option linter.unusedSectionVars false

namespace DDC.Props

open One Dom LinProb Spec Builder

variable {K : Type} [Field K] [LinearOrder K] [IsStrictOrderedRing K]

/-- The conditions of the interpolation problem are met up to `1e-14 (r + τ) + 1e-15` times the sum of the
absolute values of the coefficients, where `r` is one plus the sum of the absolute values of the condition
on the B-splines; this sum is one for a value.  The conditions on the derivatives of order `k` are the ones
multiplied by `h ^ k`. -/
structure InterpolatesUpTo (t : Nat → K) (p n N : Nat) (X : Nat → K) (lower upper : Closure) (v dl du : Nat → K)
    (c : Nat → K) (h τ : K) : Prop where
  value : ∀ k, k < N → |splineValue t p n c (X k) - v k| ≤
    (1 / 10 ^ 14 * (2 + τ) + 1 / 10 ^ 15) * ∑ J ∈ Finset.range (n + p), |c J|
  atLower : lower = .hermite → ∀ i, i < p / 2 →
    |h ^ (i + p % 2) * (splineDeriv t p n c p (i + p % 2) (t p) - dl i)| ≤
      (1 / 10 ^ 14 * (1 + ∑ J ∈ Finset.range (n + p), |h ^ (i + p % 2) * basisDeriv t p p (i + p % 2) J (t p)| + τ)
        + 1 / 10 ^ 15) * ∑ J ∈ Finset.range (n + p), |c J|
  atLower0 : lower = .homogeneousHermite → ∀ i, i < p / 2 →
    |h ^ (i + p % 2) * splineDeriv t p n c p (i + p % 2) (t p)| ≤
      (1 / 10 ^ 14 * (1 + ∑ J ∈ Finset.range (n + p), |h ^ (i + p % 2) * basisDeriv t p p (i + p % 2) J (t p)| + τ)
        + 1 / 10 ^ 15) * ∑ J ∈ Finset.range (n + p), |c J|
  atUpper : upper = .hermite → ∀ i, i < p / 2 →
    |h ^ (i + p % 2) * (splineDeriv t p n c (p + n - 1) (i + p % 2) (t (p + n)) - du i)| ≤
      (1 / 10 ^ 14 * (1 + ∑ J ∈ Finset.range (n + p),
        |h ^ (i + p % 2) * basisDeriv t p (p + n - 1) (i + p % 2) J (t (p + n))| + τ)
        + 1 / 10 ^ 15) * ∑ J ∈ Finset.range (n + p), |c J|
  atUpper0 : upper = .homogeneousHermite → ∀ i, i < p / 2 →
    |h ^ (i + p % 2) * splineDeriv t p n c (p + n - 1) (i + p % 2) (t (p + n))| ≤
      (1 / 10 ^ 14 * (1 + ∑ J ∈ Finset.range (n + p),
        |h ^ (i + p % 2) * basisDeriv t p (p + n - 1) (i + p % 2) J (t (p + n))| + τ)
        + 1 / 10 ^ 15) * ∑ J ∈ Finset.range (n + p), |c J|

/-- The matrix that results from writing the entries of `G` into a new one: an entry is either written, or
small and not written. -/
theorem matrix_of_writes_near {m m' : LinProb K} {nb : Nat} (hm : Fresh m nb) {ws : List (U64 × U64 × K)}
    (e : writeAll m ws = .ok m') {G : Nat → Nat → K}
    (hval : ∀ w ∈ ws, w.2.2 = G w.1.toNat w.2.1.toNat)
    (hcov : ∀ i j, i < nb → j < nb → G i j ≠ 0 → ∃ w ∈ ws, w.1.toNat = i ∧ w.2.1.toNat = j)
    (hsame : ∀ i j k l : Nat, i < nb → j < nb → k < nb → l < nb → m.Same (i, j) (k, l) → G i j = G k l) :
    m'.Shaped ∧ m'.size = m.size ∧ m'.Same = m.Same ∧
      ∀ i j, i < nb → j < nb → m'.shown i j = G i j ∨ (m'.shown i j = 0 ∧ |G i j| < 1 / 10 ^ 15) := by
  obtain ⟨h1, h2, h3, h4⟩ := writeAll_legal hm.shaped e
  refine ⟨h2, h3, h4, fun i j hi hj => ?_⟩
  obtain ⟨q, eq, -, -, hq⟩ := C38_history m hm.shaped ws h1
  obtain rfl := Res.ok.inj (eq.symm.trans e)
  have hn := hm.shaped.small
  have hsz := hm.size
  have ei : (BitVec.ofNat 64 i).toNat = i := by rw [BitVec.toNat_ofNat, Nat.mod_eq_of_lt (by omega)]
  have ej : (BitVec.ofNat 64 j).toNat = j := by rw [BitVec.toNat_ofNat, Nat.mod_eq_of_lt (by omega)]
  obtain ⟨old, e1, e2⟩ := hq (BitVec.ofNat 64 i) (BitVec.ofNat 64 j) (by rw [ei, hm.size]; exact hi)
    (by rw [ej, hm.size]; exact hj)
  rw [hm.zero _ _ (by rw [ei]; exact hi) (by rw [ej]; exact hj)] at e1
  obtain rfl := Res.ok.inj e1
  rw [LinProb.shown, e2, ei, ej]
  by_cases hw : ∃ w ∈ ws, m.Stored w.1.toNat w.2.1.toNat ∧ m.Same (w.1.toNat, w.2.1.toNat) (i, j)
  · left
    refine lastValue_eq (fun w hw _ hs => ?_) (Or.inr hw)
    rw [hval w hw]
    exact hsame _ _ _ _ (hsz ▸ (h1 w hw).1) (hsz ▸ (h1 w hw).2.1) hi hj hs
  · have hl : lastValue m i j 0 ws = 0 :=
      lastValue_eq (fun w hw' s1 s2 => absurd ⟨w, hw', s1, s2⟩ hw) (Or.inl rfl)
    by_cases hg : G i j = 0
    · exact Or.inl (by rw [hl, hg])
    · obtain ⟨w, hw', rfl, rfl⟩ := hcov i j hi hj hg
      rcases (h1 w hw').2.2 with hs | hs
      · exact absurd ⟨w, hw', hs, same_refl ..⟩ hw
      · rw [hval w hw'] at hs
        exact Or.inr ⟨hl, hs⟩

/-! ## The bound `τ` exists -/

theorem direct_set {m m' : LinProb K} (h : m.Direct) {i j : U64} {v : K} (e : m.set i j v = .ok m') : m'.Direct := by
  cases m with
  | blocks2 => exact h.elim
  | blocks3 => exact h.elim
  | _ =>
    obtain ⟨a, -, e⟩ := Res.bind_eq_ok.1 e
    obtain rfl := Res.ok.inj e
    trivial

theorem set2_inv {k : U64} {tl : LinProb K} {f : U64 → U64 → K → Res (LinProb K)} {tr bl : Mat K} {brn : U64} {br : Mat K}
    {mk : LinProb K → Mat K → Mat K → Mat K → LinProb K} {i j : U64} {v : K} {m' : LinProb K}
    (e : set2 k tl f tr bl brn br mk i j v = .ok m') :
    ∃ tl' tr' bl' br', m' = mk tl' tr' bl' br' ∧ (tl' = tl ∨ f i j v = .ok tl') := by
  rw [set2] at e
  obtain ⟨-, -, e⟩ := Res.bind_eq_ok.1 e
  obtain ⟨-, -, e⟩ := Res.bind_eq_ok.1 e
  dsimp only at e
  split_ifs at e <;> obtain ⟨a, ea, e⟩ := Res.bind_eq_ok.1 e <;> obtain rfl := Res.ok.inj e
  · exact ⟨a, _, _, _, rfl, Or.inr ea⟩
  · exact ⟨_, _, _, _, rfl, Or.inl rfl⟩
  · exact ⟨_, _, _, _, rfl, Or.inl rfl⟩
  · exact ⟨_, _, _, _, rfl, Or.inl rfl⟩

theorem flat_set {m m' : LinProb K} (h : m.Flat) {i j : U64} {v : K} (e : m.set i j v = .ok m') : m'.Flat := by
  cases m with
  | blocks2 =>
    obtain ⟨tl', tr', bl', br', rfl, rfl | e'⟩ := set2_inv e
    · exact h
    · exact direct_set h e'
  | blocks3 =>
    obtain ⟨tl', tr', bl', br', rfl, rfl | e'⟩ := set2_inv e
    · exact h
    · exact direct_set h e'
  | _ =>
    obtain ⟨a, -, e⟩ := Res.bind_eq_ok.1 e
    obtain rfl := Res.ok.inj e
    trivial

theorem flat_writeAll (ws : List (U64 × U64 × K)) {m m' : LinProb K} (h : m.Flat) (e : writeAll m ws = .ok m') :
    m'.Flat := by
  induction ws generalizing m with
  | nil => exact Res.ok.inj e ▸ h
  | cons w ws ih =>
    obtain ⟨m1, e1, e⟩ := Res.bind_eq_ok.1 (show (LinProb.set m w.1 w.2.1 w.2.2 >>= fun m => writeAll m ws) = _
      by rw [← e, writeAll, List.foldlM_cons]; rfl)
    exact ih (flat_set h e1) e

theorem direct_makeBand {k kl ku : Int} {pds : Bool} {m : LinProb K} (e : makeBand k kl ku pds = .ok m) : m.Direct := by
  rw [makeBand] at e
  split_ifs at e
  · exact Res.ok.inj e ▸ trivial
  · rw [mkPdsBand] at e
    simp only [Res.bind_eq_ok] at e
    grind [LinProb.Direct]
  · obtain ⟨a, -, e⟩ := Res.bind_eq_ok.1 e
    obtain ⟨a, -, e⟩ := Res.bind_eq_ok.1 e
    obtain ⟨a, -, e⟩ := Res.bind_eq_ok.1 e
    split_ifs at e
    · exact Res.ok.inj e ▸ trivial
    · rw [mkBand] at e
      simp only [Res.bind_eq_ok] at e
      grind [LinProb.Direct]

theorem flat_makeBlocks {k kl ku bottom top : Int} {pds : Bool} {m : LinProb K}
    (e : makeBlocks k kl ku pds bottom top = .ok m) : m.Flat := by
  rw [makeBlocks] at e
  obtain ⟨a, -, e⟩ := Res.bind_eq_ok.1 e
  obtain ⟨a, -, e⟩ := Res.bind_eq_ok.1 e
  obtain ⟨main, em, e⟩ := Res.bind_eq_ok.1 e
  split_ifs at e
  · obtain ⟨a, -, e⟩ := Res.bind_eq_ok.1 e
    exact Res.ok.inj e ▸ direct_makeBand em
  · obtain ⟨a, -, e⟩ := Res.bind_eq_ok.1 e
    exact Res.ok.inj e ▸ direct_makeBand em

theorem flat_makePeriodic {k kl ku : Int} {pds : Bool} {m : LinProb K}
    (e : makePeriodic k kl ku pds = .ok m) : m.Flat := by
  rw [makePeriodic] at e
  obtain ⟨a, -, e⟩ := Res.bind_eq_ok.1 e
  obtain ⟨a, -, e⟩ := Res.bind_eq_ok.1 e
  obtain ⟨a, -, e⟩ := Res.bind_eq_ok.1 e
  obtain ⟨b, -, e⟩ := Res.bind_eq_ok.1 e
  cases b
  · exact flat_makeBlocks e
  · exact Res.ok.inj e ▸ trivial

variable [FloorRing K]

variable {bs : BSpl K} {per : Bool} {p n : Nat} {t : Nat → K}

/-- The rows of the matrix of the unknowns are not larger than those of the conditions. -/
theorem collocation_row {R : Nat → Nat → K} {size nb : Nat} {off : Int} (hnb : 0 < nb) (i : Nat) :
    ∑ j ∈ Finset.range nb, |collocation R size nb off i j| ≤ ∑ J ∈ Finset.range size, |R i J| := by
  have h1 : ∀ j, |collocation R size nb off i j| ≤
      ∑ J ∈ Finset.range size, if ((J : Int) - off) % (nb : Int) = j then |R i J| else 0 := by
    intro j
    rw [collocation]
    refine (Finset.abs_sum_le_sum_abs _ _).trans (le_of_eq (Finset.sum_congr rfl fun J _ => ?_))
    split_ifs
    · rfl
    · exact abs_zero
  refine (Finset.sum_le_sum fun j _ => h1 j).trans (le_of_eq ?_)
  rw [Finset.sum_comm]
  refine Finset.sum_congr rfl fun J _ => ?_
  have a1 := Int.emod_nonneg ((J : Int) - off) (show (nb : Int) ≠ 0 by omega)
  have a2 := Int.emod_lt_of_pos ((J : Int) - off) (show (0 : Int) < (nb : Int) by omega)
  rw [Finset.sum_eq_single (((J : Int) - off) % (nb : Int)).toNat]
  · rw [if_pos (by omega)]
  · intro j _ hj
    rw [if_neg (by omega)]
  · intro hj
    exact absurd (Finset.mem_range.2 (by omega)) hj

/-- The B-splines are not negative and their sum is one. -/
theorem bspline_row (h : bs.Is per p n t) {x : K} {c : Nat} (hc : c < n) (hx : InCell t (t (p + n)) x (c + p)) :
    ∑ J ∈ Finset.range (n + p), |bspline t (t (p + n)) p J x| = 1 := by
  rw [← bspline_sum h.mono hx p c rfl]
  simp only [abs_of_nonneg (bspline_nonneg h.mono hx p _)]
  rw [show n + p = c + (p + 1) + (n - 1 - c) by omega, Finset.sum_range_add, Finset.sum_range_add,
    Finset.sum_eq_zero, zero_add]
  · conv_rhs => rw [← add_zero (∑ r ∈ Finset.range (p + 1), _)]
    congr 1
    refine Finset.sum_eq_zero fun J _ => ?_
    rw [bspline_eq_piece h.mono hx, piece_zero t _ p _ (by omega)]; simp
  · intro J hJ
    have := Finset.mem_range.1 hJ
    rw [bspline_eq_piece h.mono hx, piece_zero t _ p _ (by omega)]; simp

/-- As `C41_interpolates_partial`, without excluding small entries of the matrix; `τ` bounds the columns of
`Q⁻¹ γ` of the block storages (`C39_coupling_exists`: there is one).  Missing: symmetry of the matrices
stored as symmetric, shifts between `0` and the degree, more cells than the degree in a periodic dimension,
as in `C41_interpolates_partial`. -/
theorem C41_approximates_partial (h : bs.Is per p n t) {L : Lapack K} (hL : L.Exact) {σ : Sched} (hσ : σ.Valid)
    {lower upper : Closure} {s N : Nat} {coord : Elem Unit → Res K} {X : Nat → K}
    (hX : PointsIn t p n s N coord X) {B : Builder K}
    (hB : Builder.mk' L σ bs lower upper (seg () s (s + N)) coord = .ok B)
    (hoff : 0 ≤ B.offset ∧ B.offset ≤ p) (hper : per = true → p < n) {G : Nat → Nat → K} {nb : Nat}
    (hnb : nb = if per then n else n + p)
    (hG : G = collocation (condition t p n (edgeEquations lower p) N X ((t (p + n) - t p) / n)) (n + p) nb B.offset)
    {τ : K} (hτ : B.matrix.Coupling τ)
    (hsym : bs.isUniform = true → ∀ i j, i < nb → j < nb → B.matrix.Same (i, j) (j, i) → G i j = G j i)
    {σ' : Sched} (hσ' : σ'.Valid) (junk : Nat → Nat → K) {spline vals : Mat K} {dmin dmax : Option (U64 × Mat K)}
    (hs : spline.rows = n + p) (hv : vals.rows = N) (hc : vals.cols = spline.cols)
    (hmin : GivenDerivs lower p spline.cols dmin) (hmax : GivenDerivs upper p spline.cols dmax) :
    ∃ spline', B.apply L σ' junk spline vals dmin dmax = .ok spline' ∧ spline'.rows = n + p ∧
      spline'.cols = spline.cols ∧ ∀ j, j < spline.cols →
        InterpolatesUpTo t p n N X lower upper (fun k => vals.val k j) (fun i => derivAt dmin i j)
          (fun i => derivAt dmax i j) (fun J => spline'.val J j) ((t (p + n) - t p) / n) τ ∧
        (per = true → ∀ i, i < p → spline'.val (n + i) j = spline'.val i j) := by
  have hxs := hX.small
  have hsm := h.small
  have hn := h.cells
  have hp := h.pos
  obtain ⟨hf, rfl, rfl, rfl, eD, edx, eo, hN, -, m, hm, hms, em, eS⟩ := builder_inv h hxs hB
  rw [← equations_eq] at hG
  set lower := B.lower with hlower
  set upper := B.upper with hupper
  set bs := B.bs with hbs
  rw [← hnb] at hN hm
  rw [← edx] at hG ⊢
  obtain ⟨off, eoff⟩ : ∃ o : Nat, B.offset = o := ⟨B.offset.toNat, by omega⟩
  have hoff0 : per = false → B.offset = 0 := by
    intro hpe
    rw [computeOffset, h.periodic, hpe] at eo
    exact (Res.ok.inj eo).symm
  have hlo : lower.equations p ≤ p / 2 := by rw [Closure.equations]; split_ifs <;> omega
  have hup : upper.equations p ≤ p / 2 := by rw [Closure.equations]; split_ifs <;> omega
  have hnb0 : 0 < nb := by split_ifs at hnb <;> omega
  have hnb1 : nb ≤ n + p := by split_ifs at hnb <;> omega
  have hnoff : nb + off ≤ n + p := by
    cases hpe : per
    · have := hoff0 hpe; omega
    · rw [hpe] at hnb; simp at hnb; omega
  rw [buildMatrix_same h hf hX hnb hN hoff.1 (by omega) B.dx hm em] at hsym
  obtain ⟨ws, hw, hwval, hwcov⟩ := buildMatrix_writes h hf hX hnb hN hoff.1 (by omega) hoff0 hper B.dx hG
  rw [hw] at em
  obtain ⟨M1, M2, M3, M4⟩ := matrix_of_writes_near hm em (fun w h => (hwval w h).1) hwcov
    (fun i j k l hi hj hk hl hsame => by
      rcases hms _ _ hsame with e | ⟨hu, e⟩
      · obtain ⟨rfl, rfl⟩ := Prod.mk.inj e; rfl
      · obtain ⟨e1, e2⟩ := Prod.mk.inj e
        simp only at e1 e2
        subst e1 e2
        exact hsym hu _ _ hi hj hsame)
  have hpos : 0 < B.matrix.size.toNat := by rw [M2, hm.size]; exact hnb0
  have hsz : B.matrix.size.toNat = nb := by rw [M2, hm.size]
  obtain ⟨M, hsolve, hM⟩ := C39_nearby hL hσ B.matrix M1 hpos hτ B.solver eS
  obtain ⟨rr, er, hrr⟩ := C39_required_rows B.matrix M1
  rw [hsz] at hsolve hrr hM
  obtain ⟨b', e, r, c, hcol⟩ := apply_ok h hf hnb hN (by rw [eD, seg_size (by omega), Nat.add_sub_cancel_left])
    (lo := lower.equations p) rfl (by omega) eoff (by omega) hnoff hoff0 hper hsolve er hrr hσ' junk hs hv hc hmin hmax
  refine ⟨b', e, r, c, fun j hj => ?_⟩
  obtain ⟨x, y, hx, hxy, hval, hl, hl0, hu, hu0⟩ := hcol j hj
  -- the difference between the matrix that is solved and the matrix of the conditions
  have hgap : ∀ i k, i < nb → k < nb → |G i k - M i k| ≤ 1 / 10 ^ 14 * (1 + ∑ J ∈ Finset.range (n + p),
      |condition t p n (lower.equations p) N X B.dx i J| + τ) + 1 / 10 ^ 15 := by
    intro i k hi hk
    have a1 : ∀ l, l < nb → |B.matrix.shown i l| ≤ |G i l| := by
      intro l hl
      rcases M4 i l hi hl with h | ⟨h, -⟩
      · rw [h]
      · rw [h, abs_zero]; exact abs_nonneg _
    have a2 : ∑ l ∈ Finset.range nb, |B.matrix.shown i l| ≤
        ∑ J ∈ Finset.range (n + p), |condition t p n (lower.equations p) N X B.dx i J| := by
      refine (Finset.sum_le_sum fun l hl => a1 l (Finset.mem_range.1 hl)).trans ?_
      rw [hG]
      exact collocation_row hnb0 i
    have a3 : |G i k - B.matrix.shown i k| ≤ 1 / 10 ^ 15 := by
      rcases M4 i k hi hk with h | ⟨h, h'⟩
      · rw [h, sub_self, abs_zero]; positivity
      · rw [h, sub_zero]; exact h'.le
    have a4 := hM i k hi hk
    have a5 : (1 : K) / 10 ^ 14 * (1 + ∑ l ∈ Finset.range nb, |B.matrix.shown i l| + τ) ≤
        1 / 10 ^ 14 * (1 + ∑ J ∈ Finset.range (n + p), |condition t p n (lower.equations p) N X B.dx i J| + τ) :=
      mul_le_mul_of_nonneg_left (by linarith) (by positivity)
    have a6 : |G i k - M i k| ≤ |G i k - B.matrix.shown i k| + |B.matrix.shown i k - M i k| := abs_sub_le _ _ _
    rw [abs_sub_comm (B.matrix.shown i k)] at a6
    linarith
  have hxc : ∑ k ∈ Finset.range nb, |x k| ≤ ∑ J ∈ Finset.range (n + p), |b'.val J j| := by
    have e1 : ∑ k ∈ Finset.range nb, |x k| = ∑ k ∈ Finset.range nb, |b'.val (off + k) j| := by
      refine Finset.sum_congr rfl fun k hk => ?_
      have := Finset.mem_range.1 hk
      rw [hxy _ (by omega)]
      congr 2
      rw [Int.emod_eq_of_lt (by omega) (by omega)]
      omega
    rw [e1, show n + p = off + nb + (n + p - off - nb) by omega, Finset.sum_range_add, Finset.sum_range_add]
    have s1 : 0 ≤ ∑ k ∈ Finset.range off, |b'.val k j| := Finset.sum_nonneg fun _ _ => abs_nonneg _
    have s2 : 0 ≤ ∑ k ∈ Finset.range (n + p - off - nb), |b'.val (off + nb + k) j| :=
      Finset.sum_nonneg fun _ _ => abs_nonneg _
    linarith
  have hGx : ∀ i, i < nb → |∑ J ∈ Finset.range (n + p),
      b'.val J j * condition t p n (lower.equations p) N X B.dx i J - y i| ≤
      (1 / 10 ^ 14 * (1 + ∑ J ∈ Finset.range (n + p), |condition t p n (lower.equations p) N X B.dx i J| + τ)
        + 1 / 10 ^ 15) * ∑ J ∈ Finset.range (n + p), |b'.val J j| := by
    intro i hi
    have h1 := hx i hi
    simp only [Bool.false_eq_true, if_false] at h1
    rw [← h1, ← collocation_sum (off := B.offset) hnb0 x (fun J => b'.val J j)
      (fun J hJ => by rw [hxy J hJ, eoff]) i, ← hG, ← Finset.sum_sub_distrib]
    refine (Finset.abs_sum_le_sum_abs _ _).trans ?_
    have h0 : (0 : K) ≤ 1 / 10 ^ 14 * (1 + ∑ J ∈ Finset.range (n + p),
        |condition t p n (lower.equations p) N X B.dx i J| + τ) + 1 / 10 ^ 15 :=
      (abs_nonneg _).trans (hgap i 0 hi hnb0)
    refine le_trans ?_ (mul_le_mul_of_nonneg_left hxc h0)
    rw [Finset.mul_sum]
    refine Finset.sum_le_sum fun k hk => ?_
    rw [← sub_mul, abs_mul]
    exact mul_le_mul_of_nonneg_right (hgap i k hi (Finset.mem_range.1 hk)) (abs_nonneg _)
  have hherm : ∀ c : Closure, c = .hermite ∨ c = .homogeneousHermite → c.equations p = p / 2 := by
    rintro c (rfl | rfl) <;> rfl
  have hsc : ∀ (c : Nat → K) cell k z, ∑ J ∈ Finset.range (n + p), c J * (B.dx ^ k * basisDeriv t p cell k J z) =
      B.dx ^ k * splineDeriv t p n c cell k z := by
    intro c cell k z
    rw [splineDeriv, Finset.mul_sum]
    exact Finset.sum_congr rfl fun J _ => by ring
  have hlow : ∀ i, i < lower.equations p →
      |B.dx ^ (i + p % 2) * splineDeriv t p n (fun J => b'.val J j) p (i + p % 2) (t p) - y i| ≤
      (1 / 10 ^ 14 * (1 + ∑ J ∈ Finset.range (n + p), |B.dx ^ (i + p % 2) * basisDeriv t p p (i + p % 2) J (t p)| + τ)
        + 1 / 10 ^ 15) * ∑ J ∈ Finset.range (n + p), |b'.val J j| := by
    intro i hi
    have := hGx i (by omega)
    simp only [condition, if_pos hi] at this
    rw [hsc] at this
    exact this
  have hupp : ∀ i, i < upper.equations p →
      |B.dx ^ (i + p % 2) * splineDeriv t p n (fun J => b'.val J j) (p + n - 1) (i + p % 2) (t (p + n)) -
        y (lower.equations p + N + i)| ≤
      (1 / 10 ^ 14 * (1 + ∑ J ∈ Finset.range (n + p),
        |B.dx ^ (i + p % 2) * basisDeriv t p (p + n - 1) (i + p % 2) J (t (p + n))| + τ)
        + 1 / 10 ^ 15) * ∑ J ∈ Finset.range (n + p), |b'.val J j| := by
    intro i hi
    have := hGx (lower.equations p + N + i) (by omega)
    simp only [condition, if_neg (show ¬ lower.equations p + N + i < lower.equations p by omega),
      if_neg (show ¬ lower.equations p + N + i < lower.equations p + N by omega), Nat.add_sub_cancel_left] at this
    rw [hsc] at this
    exact this
  obtain ⟨cell, hcell⟩ := hX.cells h
  refine ⟨⟨fun k hk => ?_, fun hcl i hi => ?_, fun hcl i hi => ?_, fun hcl i hi => ?_, fun hcl i hi => ?_⟩,
    fun hpe i hi => ?_⟩
  · have := hGx (lower.equations p + k) (by omega)
    simp only [condition, if_neg (show ¬ lower.equations p + k < lower.equations p by omega),
      if_pos (show lower.equations p + k < lower.equations p + N by omega), Nat.add_sub_cancel_left] at this
    rw [bspline_row h (hcell k hk).1 (hcell k hk).2, hval k hk, one_add_one_eq_two] at this
    exact this
  · have := hlow i (by rw [hherm _ (.inl hcl)]; exact hi)
    rw [hl hcl i hi, mul_comm (derivAt _ _ _), ← mul_sub] at this
    exact this
  · have := hlow i (by rw [hherm _ (.inr hcl)]; exact hi)
    rw [hl0 hcl i hi, sub_zero] at this
    exact this
  · have := hupp i (by rw [hherm _ (.inl hcl)]; exact hi)
    rw [hu hcl i hi, mul_comm (derivAt _ _ _), ← mul_sub] at this
    exact this
  · have := hupp i (by rw [hherm _ (.inr hcl)]; exact hi)
    rw [hu0 hcl i hi, sub_zero] at this
    exact this
  · have hpn := hper hpe
    rw [hpe] at hnb
    simp only [if_true] at hnb
    rw [hxy _ (by omega), hxy _ (by omega), hnb, show ((n + i : Nat) : Int) - off = (i - off) + n * 1 by push_cast; ring,
      Int.add_mul_emod_self_left]

/-- The bound `τ` of `C41_approximates_partial` exists for every builder. -/
theorem C41_coupling (h : bs.Is per p n t) {L : Lapack K} (hL : L.Exact) {σ : Sched} (hσ : σ.Valid)
    {lower upper : Closure} {s N : Nat} {coord : Elem Unit → Res K} {X : Nat → K}
    (hX : PointsIn t p n s N coord X) {B : Builder K}
    (hB : Builder.mk' L σ bs lower upper (seg () s (s + N)) coord = .ok B)
    (hoff : 0 ≤ B.offset ∧ B.offset ≤ p) (hper : per = true → p < n) : ∃ τ, B.matrix.Coupling τ := by
  have hxs := hX.small
  have hsm := h.small
  obtain ⟨hf, -, -, -, -, -, eo, hN, -, -⟩ := builder_inv h hxs hB
  have hoff0 : per = false → B.offset = 0 := by
    intro hpe
    rw [computeOffset, h.periodic, hpe] at eo
    exact (Res.ok.inj eo).symm
  have hB' := hB
  rw [Builder.mk'] at hB'
  obtain ⟨-, -, hB'⟩ := Res.bind_eq_ok.1 hB'
  obtain ⟨b, -, hB'⟩ := Res.bind_eq_ok.1 hB'
  obtain ⟨a, -, hB'⟩ := Res.bind_eq_ok.1 hB'
  obtain ⟨nc, -, hB'⟩ := Res.bind_eq_ok.1 hB'
  obtain ⟨-, -, hB'⟩ := Res.bind_eq_ok.1 hB'
  obtain ⟨off, eo', hB'⟩ := Res.bind_eq_ok.1 hB'
  obtain ⟨m, em, hB'⟩ := Res.bind_eq_ok.1 hB'
  obtain ⟨m', em', hB'⟩ := Res.bind_eq_ok.1 hB'
  obtain ⟨S, eS, hB'⟩ := Res.bind_eq_ok.1 hB'
  obtain rfl := Res.ok.inj hB'
  dsimp only at *
  obtain ⟨ws, hw, -⟩ := buildMatrix_writes h hf hX rfl hN hoff.1 (by omega) hoff0 hper ((b - a) / (nc.toNat : K)) rfl
  rw [hw] at em'
  have hflat : m.Flat := by
    rw [allocateMatrix] at em
    obtain ⟨nb, -, em⟩ := Res.bind_eq_ok.1 em
    by_cases hp : bs.periodic = true
    · rw [if_pos hp] at em
      exact flat_makePeriodic em
    · rw [if_neg hp] at em
      exact flat_makeBlocks em
  obtain ⟨-, -, -, -, -, edx, -, -, -, m0, hm0, -, em0, -⟩ := builder_inv h hxs hB
  dsimp only at em0
  rw [hw] at em0
  exact C39_coupling_exists hL hσ m' (writeAll_legal hm0.shaped em0).2.1 (flat_writeAll ws hflat em') S eS

/-- All the hypotheses of `C41_approximates_partial` hold in the example of `C41b`. -/
example {L : Lapack Rat} (hL : L.Exact) {σ : Sched} (hσ : σ.Valid) : ∃ u B τ, UBS.mk' 2 true (0 : Rat) 3 3 = .ok u ∧
    Builder.mk' L σ (.uniform u) .periodic .periodic (seg () 0 3) (listPoints [1 / 2, 3 / 2, 5 / 2]) = .ok B ∧
    ∀ y : Nat → Nat → Rat, ∃ c, B.apply L σ (fun _ _ => 0) ⟨5, 10, fun _ _ => 0⟩ ⟨3, 10, y⟩ none none = .ok c ∧
      ∀ j < 10, ∀ k < 3, |splineValue (uniformKnot (0 : Rat) 3 3 2) 2 3 (fun J => c.val J j)
        ([1 / 2, 3 / 2, 5 / 2].getD k 0) - y k j| ≤
          (1 / 10 ^ 14 * (2 + τ) + 1 / 10 ^ 15) * ∑ J ∈ Finset.range 5, |c.val J j| := by
  obtain ⟨u, B, eu, hu, eB, ho, -⟩ := example_builder hL σ
  obtain ⟨τ, hτ⟩ := C41_coupling hu hL hσ example_points eB (by rw [ho]; norm_num) (by norm_num)
  refine ⟨u, B, τ, eu, eB, fun y => ?_⟩
  obtain ⟨c, e, -, -, hc⟩ := C41_approximates_partial hu hL hσ example_points eB (by rw [ho]; norm_num) (by norm_num)
    (nb := 3) (G := collocation (condition (uniformKnot (0 : Rat) 3 3 2) 2 3 0 3 (fun k => [1 / 2, 3 / 2, 5 / 2].getD k 0)
      ((uniformKnot (0 : Rat) 3 3 2 (2 + 3) - uniformKnot (0 : Rat) 3 3 2 2) / (3 : Nat))) (3 + 2) 3 1) rfl
    (by rw [ho]; rfl) hτ (fun _ i j hi hj _ => (example_matrix i hi j hj).trans (by
      rw [show (if i = j then (3 / 4 : Rat) else 1 / 8) = if j = i then 3 / 4 else 1 / 8 by simp only [eq_comm]]
      exact (example_matrix j hj i hi).symm)) hσ (fun _ _ => 0) (spline := ⟨5, 10, fun _ _ => 0⟩) (vals := ⟨3, 10, y⟩) (dmin := none)
      (dmax := none) rfl rfl rfl (by simp [GivenDerivs]) (by simp [GivenDerivs])
  exact ⟨c, e, fun j hj k hk => (hc j hj).1.value k hk⟩

end DDC.Props
