import Verif.Lemmas.Quadrature
import Verif.Props.C41b

/-!
# C43: the quadrature coefficients

The sum of the data (values at the points and derivatives at the boundaries) multiplied by the coefficients that
`quadrature_coefficients` returns is the integral of the spline that interpolates the data.

* `C43_sum`: the sum that the coefficients compute, for all closures and all shifts of the periodic unknowns.
* `C43_quadrature_partial`: it is the integral.  Missing: homogeneous Hermite closures from degree 2 on, and periodic
  splines on a non-uniform mesh with a shift; the claim is false there.
* `C43_homogeneous`: with a homogeneous Hermite closure the coefficients are not on the interpolation mesh.
* `C43_shift_ignored`: a non-uniform periodic case where the sum is not the integral.
-/

set_option linter.unusedSectionVars false

namespace DDC.Props

open One Dom LinProb Spec Builder Polynomial

variable {K : Type} [Field K] [LinearOrder K] [IsStrictOrderedRing K]

/-- Specification: `I` is the integral of `f` over the knot intervals `lo, ..., hi - 1`, on each of which `f` is a
polynomial: the sum of the increments of antiderivatives. -/
def IsIntegralOf (t : Nat → K) (b : K) (lo hi : Nat) (f : K → K) (I : K) : Prop :=
  ∃ Q : Nat → K[X],
    (∀ c, lo ≤ c → c < hi → t c < t (c + 1) → ∀ x, InCell t b x c → f x = (derivative (Q c)).eval x) ∧
    I = ∑ c ∈ Finset.Ico lo hi, ((Q c).eval (t (c + 1)) - (Q c).eval (t c))

/-- The integral is determined by this. -/
theorem IsIntegralOf.unique {t : Nat → K} (ht : Monotone t) {b : K} {lo hi : Nat} (hb : t hi ≤ b) {f : K → K}
    {I J : K} (hI : IsIntegralOf t b lo hi f I) (hJ : IsIntegralOf t b lo hi f J) : I = J := by
  obtain ⟨Q, h1, rfl⟩ := hI
  obtain ⟨R, h2, rfl⟩ := hJ
  refine Finset.sum_congr rfl fun c hc => ?_
  rw [Finset.mem_Ico] at hc
  rcases (ht (Nat.le_succ c)).eq_or_lt with he | hlt
  · rw [Nat.succ_eq_add_one] at he
    rw [he, sub_self, sub_self]
  · have hle : t (c + 1) ≤ b := (ht (by omega)).trans hb
    have hd : derivative (Q c) = derivative (R c) := by
      refine Polynomial.eq_of_infinite_eval_eq _ _ (Set.Infinite.mono (s := Set.Ioo (t c) (t (c + 1))) ?_ (Set.Ioo_infinite hlt))
      intro x hx
      have hin : InCell t b x c := by
        rw [InCell, if_pos (lt_of_lt_of_le hx.2 hle)]
        exact ⟨hx.1.le, hx.2⟩
      exact (h1 c hc.1 hc.2 hlt x hin).symm.trans (h2 c hc.1 hc.2 hlt x hin)
    have hz : derivative (Q c - R c) = 0 := by rw [derivative_sub, hd, sub_self]
    have hC := natDegree_eq_zero_of_derivative_eq_zero hz
    obtain ⟨k, hk⟩ := natDegree_eq_zero.1 hC
    have e : ∀ x, (Q c).eval x - (R c).eval x = k := fun x => by rw [← eval_sub, ← hk, eval_C]
    linear_combination e (t (c + 1)) - e (t c)

/-- The integral of a spline. -/
theorem isIntegralOf_spline {t : Nat → K} {p n : Nat} (h : Ends t p n) (c : Nat → K) :
    IsIntegralOf t (t (p + n)) p (p + n) (splineValue t p n c)
      (∑ J ∈ Finset.range (n + p), c J * total t p n J) := by
  choose Q h1 h2 using fun J => isIntegral_total h (t (p + n)) J
  refine ⟨fun m => ∑ J ∈ Finset.range (n + p), C (c J) * Q J m, fun m hm hm' hlt x hx => ?_, ?_⟩
  · rw [Polynomial.derivative_sum, eval_finset_sum, splineValue]
    refine Finset.sum_congr rfl fun J _ => ?_
    rw [derivative_C_mul, eval_mul, eval_C, h1 J m hm hm' hlt x hx]
  · simp only [eval_finset_sum, eval_mul, eval_C]
    simp only [← Finset.sum_sub_distrib]
    rw [Finset.sum_comm]
    refine Finset.sum_congr rfl fun J _ => ?_
    rw [h2 J, Finset.mul_sum]
    exact Finset.sum_congr rfl fun m _ => by ring

theorem periodic_mod {p n : Nat} (hn : 0 < n) {c : Nat → K} (hc : ∀ i, i < p → c (n + i) = c i) (J : Nat)
    (hJ : J < n + p) : c J = c (J % n) := by
  induction J using Nat.strong_induction_on with
  | h J ih =>
    rcases Nat.lt_or_ge J n with h1 | h1
    · rw [Nat.mod_eq_of_lt h1]
    · obtain ⟨i, rfl⟩ := Nat.exists_eq_add_of_le h1
      rw [Nat.add_mod_left, hc i (by omega), ih i (by omega) (by omega)]

/-- The same for periodic coefficients: the first `n` are enough. -/
theorem periodic_total {t : Nat → K} {p n : Nat} (h : Ends t p n) (hr : Rep t p n) {c : Nat → K}
    (hc : ∀ i, i < p → c (n + i) = c i) :
    ∑ J ∈ Finset.range (n + p), c J * total t p n J =
      ∑ j ∈ Finset.range n, c j * ((t (j + p + 1) - t j) / ((p + 1 : Nat) : K)) := by
  have hn := h.cells
  have a1 : ∀ J ∈ Finset.range (n + p), c J * total t p n J =
      ∑ i ∈ Finset.range n, c i * (if J % n = i then total t p n J else 0) := by
    intro J hJ
    rw [Finset.mem_range] at hJ
    rw [Finset.sum_eq_single (J % n)]
    · rw [if_pos rfl]
      congr 1
      exact periodic_mod hn hc J hJ
    · intro i _ hi
      rw [if_neg (Ne.symm hi), mul_zero]
    · intro hi
      exact absurd (Finset.mem_range.2 (Nat.mod_lt J hn)) hi
  rw [Finset.sum_congr rfl a1, Finset.sum_comm]
  refine Finset.sum_congr rfl fun i hi => ?_
  rw [← Finset.mul_sum, total_periodic h hr (fun j => j % n = i) (fun j => by simp)]
  congr 1
  rw [Finset.mem_range] at hi
  rw [Finset.sum_eq_single i]
  · rw [if_pos (Nat.mod_eq_of_lt hi)]
  · intro j hj hji
    rw [if_neg]
    rw [Nat.mod_eq_of_lt (Finset.mem_range.1 hj)]
    exact hji
  · intro hi'
    exact absurd (Finset.mem_range.2 hi) hi'

theorem sum_shift {n : Nat} (off : Nat) (f : Nat → K) :
    ∑ j ∈ Finset.range n, f ((j + off) % n) = ∑ j ∈ Finset.range n, f j := by
  conv_rhs => rw [← Nat.image_Ico_mod off n]
  rw [Finset.sum_image (Nat.mod_injOn_Ico off n), Finset.sum_Ico_eq_sum_range, Nat.add_sub_cancel_left]
  simp only [Nat.add_comm off]

variable [FloorRing K]

variable {bs : BSpl K} {per : Bool} {p n : Nat} {t : Nat → K}

theorem values_le (c : Closure) (p : Nat) : c.values p ≤ c.equations p := by
  rw [Closure.values]; split_ifs <;> omega

/-- What the sum of the data multiplied by the coefficients of the code is: the unknown number `j` is the coefficient
`j + off` modulo the number of unknowns, but it is multiplied by the integral of the basis function number `j`.  The
coefficient of the point number `k` is found at the index `k` plus the number of conditions that the code has not
counted at the lower end. -/
theorem C43_sum (h : bs.Is per p n t) (hI : HasIntegrals bs per p n t) {L : Lapack K} (hL : L.Exact) {σ : Sched}
    (hσ : σ.Valid) {lower upper : Closure} {s N : Nat} {coord : Elem Unit → Res K} {X : Nat → K}
    (hX : PointsIn t p n s N coord X) {B : Builder K}
    (hB : Builder.mk' L σ bs lower upper (seg () s (s + N)) coord = .ok B)
    (hoff : 0 ≤ B.offset ∧ B.offset ≤ p) (hper : per = true → p < n) {G : Nat → Nat → K} {nb : Nat}
    (hnb : nb = if per then n else n + p)
    (hG : G = collocation (condition t p n (edgeEquations lower p) N X ((t (p + n) - t p) / n)) (n + p) nb B.offset)
    (hclean : B.matrix.Clean) (htiny : ∀ i j, i < nb → j < nb → |G i j| < 1 / 10 ^ 15 → G i j = 0)
    (hsym : bs.isUniform = true → ∀ i j, i < nb → j < nb → B.matrix.Same (i, j) (j, i) → G i j = G j i)
    {σ' : Sched} (hσ' : σ'.Valid) {sched : List Nat}
    (hsched : sched.Perm (List.range (if bs.isUniform then p else if per then n else n + p))) :
    ∃ ql q qu, B.quadrature L σ' sched = .ok (ql, q, qu) ∧
      ql.dom = seg () (p % 2) (p % 2 + lower.values p) ∧
      q.dom = seg () s (s + (N + (lower.equations p - lower.values p) + (upper.equations p - upper.values p))) ∧
      qu.dom = seg () (p % 2) (p % 2 + upper.values p) ∧
      ∃ wl w wu : Nat → K, (∀ i, i < lower.values p → ql.data.val i = some (wl i)) ∧
        (∀ k, k < N + (lower.equations p - lower.values p) + (upper.equations p - upper.values p) →
          q.data.val k = some (w k)) ∧
        (∀ i, i < upper.values p → qu.data.val i = some (wu i)) ∧
        ∀ v dl du c : Nat → K, Interpolates t p n N X lower upper v dl du c →
          (per = true → ∀ i, i < p → c (n + i) = c i) →
          ∑ i ∈ Finset.range (lower.values p), wl i * dl i +
            ∑ k ∈ Finset.range N, w (lower.equations p - lower.values p + k) * v k +
            ∑ i ∈ Finset.range (upper.values p), wu i * du i =
          ∑ j ∈ Finset.range nb, c ((j + B.offset.toNat) % nb) * intVal per p n t j := by
  have hxs := hX.small
  have hsm := h.small
  have hn := h.cells
  have hp := h.pos
  obtain ⟨hf, rfl, rfl, rfl, eD, edx, eo, hN, -, m, hm, hms, em, eS⟩ := builder_inv h hxs hB
  rw [← equations_eq] at hG
  set lower := B.lower with hlower
  set upper := B.upper with hupper
  set bs := B.bs with hbs
  rw [← hnb] at hN hm
  rw [← edx] at hG
  obtain ⟨off, eoff⟩ : ∃ o : Nat, B.offset = o := ⟨B.offset.toNat, by omega⟩
  have hoff0 : per = false → B.offset = 0 := by
    intro hpe
    rw [computeOffset, h.periodic, hpe] at eo
    exact (Res.ok.inj eo).symm
  have hlo : lower.equations p ≤ p / 2 := by rw [Closure.equations]; split_ifs <;> omega
  have hup : upper.equations p ≤ p / 2 := by rw [Closure.equations]; split_ifs <;> omega
  have hvl := values_le lower p
  have hvu := values_le upper p
  have hnb0 : 0 < nb := by split_ifs at hnb <;> omega
  have hnb1 : nb ≤ n + p := by split_ifs at hnb <;> omega
  rw [buildMatrix_same h hf hX hnb hN hoff.1 (by omega) B.dx hm em] at hsym
  obtain ⟨M1, M2, M3, M4⟩ := buildMatrix_is h hf hX hnb hN hoff.1 (by omega) hoff0 hper B.dx hG hm
    (fun i j k l hi hj hk hl hsame => by
      rcases hms _ _ hsame with e | ⟨hu, e⟩
      · obtain ⟨rfl, rfl⟩ := Prod.mk.inj e; rfl
      · obtain ⟨e1, e2⟩ := Prod.mk.inj e
        simp only at e1 e2
        subst e1 e2
        exact hsym hu _ _ hi hj hsame) (fun i j hi hj h => .inl (htiny i j hi hj h)) em
  have hpos : 0 < B.matrix.size.toNat := by rw [M2, hm.size]; exact hnb0
  have hsz : B.matrix.size.toNat = nb := by rw [M2, hm.size]
  have hsolve := C39_solves_partial hL hσ B.matrix M1 hpos hclean B.solver eS
  obtain ⟨rr, er, hrr⟩ := C39_required_rows B.matrix M1
  rw [hsz] at hsolve hrr
  have hsz' : B.matrix.size = BitVec.ofNat 64 nb := by rw [← hsz, BitVec.ofNat_toNat, BitVec.setWidth_eq]
  obtain ⟨⟨ql, q, qu⟩, w, e, hw, A⟩ := quadrature_ok hbs.symm h hI hnb (ha := rfl) (hb := rfl)
    (by rw [← hlower, ← hupper]; omega) eD hsz' hsolve er hrr hσ' hsched
  rw [← hlower, ← hupper] at A
  have eN : nb - lower.values p - upper.values p =
      N + (lower.equations p - lower.values p) + (upper.equations p - upper.values p) := by omega
  refine ⟨ql, q, qu, e, A.dom1, by rw [← eN]; exact A.dom2, A.dom3, fun i => w i * B.dx ^ (i + p % 2),
    fun k => w (lower.values p + k), fun i => w (nb - upper.values p + i) * B.dx ^ (i + p % 2), A.val1,
    by rw [← eN]; exact A.val2, A.val3, fun v dl du c hc hcp => ?_⟩
  -- the data is the image of the unknowns
  have hx : ∀ J, J < n + p → c J = c (((((J : Int) - B.offset) % (nb : Int)).toNat + off) % nb) := by
    intro J hJ
    rw [eoff]
    have a1 := Int.emod_nonneg ((J : Int) - off) (show (nb : Int) ≠ 0 by omega)
    have : ((((J : Int) - off) % (nb : Int)).toNat + off) % nb = J % nb := by
      zify
      rw [Int.toNat_of_nonneg a1, Int.emod_add_emod, sub_add_cancel]
    rw [this]
    cases hpe : per
    · rw [hpe] at hnb
      rw [Nat.mod_eq_of_lt (by simp at hnb; omega)]
    · have hnb' := hnb
      rw [hpe] at hnb'
      simp only [if_true] at hnb'
      have := hper hpe
      rcases Nat.lt_or_ge J nb with h1 | h1
      · rw [Nat.mod_eq_of_lt h1]
      · obtain ⟨i, rfl⟩ := Nat.exists_eq_add_of_le h1
        rw [Nat.add_mod_left, Nat.mod_eq_of_lt (by omega), hnb', hcp hpe i (by omega)]
  have hy : ∀ i, i < nb → ∑ j ∈ Finset.range nb, G i j * c ((j + off) % nb) =
      ∑ J ∈ Finset.range (n + p), c J * condition t p n (lower.equations p) N X B.dx i J := by
    intro i hi
    rw [← collocation_sum (off := B.offset) hnb0 (fun j => c ((j + off) % nb)) c hx i, hG]
  have hG' : ∀ j, j < nb → ∑ i ∈ Finset.range nb, G i j * w i = intVal per p n t j := by
    intro j hj
    have := hw j hj
    simp only [if_true] at this
    rw [← this]
    exact Finset.sum_congr rfl fun i hi => by rw [M4 i j (Finset.mem_range.1 hi) hj]
  have key : ∑ i ∈ Finset.range nb, w i *
      ∑ J ∈ Finset.range (n + p), c J * condition t p n (lower.equations p) N X B.dx i J =
      ∑ j ∈ Finset.range nb, c ((j + off) % nb) * intVal per p n t j := by
    have : ∀ i ∈ Finset.range nb, w i *
        ∑ J ∈ Finset.range (n + p), c J * condition t p n (lower.equations p) N X B.dx i J =
        ∑ j ∈ Finset.range nb, w i * (G i j * c ((j + off) % nb)) := by
      intro i hi
      rw [← hy i (Finset.mem_range.1 hi), Finset.mul_sum]
    rw [Finset.sum_congr rfl this, Finset.sum_comm]
    refine Finset.sum_congr rfl fun j hj => ?_
    rw [← hG' j (Finset.mem_range.1 hj), Finset.mul_sum]
    exact Finset.sum_congr rfl fun i _ => by ring
  have hoff' : B.offset.toNat = off := by rw [eoff]; rfl
  rw [hoff', ← key, ← hN, Finset.sum_range_add, Finset.sum_range_add]
  have hsc : ∀ (c : Nat → K) cell k z, ∑ J ∈ Finset.range (n + p), c J * (B.dx ^ k * basisDeriv t p cell k J z) =
      splineDeriv t p n c cell k z * B.dx ^ k := by
    intro c cell k z
    rw [splineDeriv, Finset.sum_mul]
    exact Finset.sum_congr rfl fun J _ => by ring
  have hlow : ∀ i, i < lower.equations p → ∑ J ∈ Finset.range (n + p), c J *
      condition t p n (lower.equations p) N X B.dx i J =
      splineDeriv t p n c p (i + p % 2) (t p) * B.dx ^ (i + p % 2) := by
    intro i hi
    rw [← hsc]
    refine Finset.sum_congr rfl fun J _ => ?_
    rw [condition, if_pos hi]
  have hupp : ∀ i, i < upper.equations p → ∑ J ∈ Finset.range (n + p), c J *
      condition t p n (lower.equations p) N X B.dx (lower.equations p + N + i) J =
      splineDeriv t p n c (p + n - 1) (i + p % 2) (t (p + n)) * B.dx ^ (i + p % 2) := by
    intro i hi
    rw [← hsc]
    refine Finset.sum_congr rfl fun J _ => ?_
    rw [condition, if_neg (by omega), if_neg (by omega), Nat.add_sub_cancel_left]
  congr 1
  · congr 1
    · by_cases c0 : lower = .homogeneousHermite
      · rw [Closure.values, if_pos c0, Finset.sum_range_zero]
        symm
        refine Finset.sum_eq_zero fun i hi => ?_
        rw [Finset.mem_range] at hi
        rw [hlow i hi, hc.atLower0 c0 i (by omega), zero_mul, mul_zero]
      · rw [Closure.values, if_neg c0]
        refine Finset.sum_congr rfl fun i hi => ?_
        rw [Finset.mem_range] at hi
        have ch : lower = .hermite := by
          cases hl : lower with
          | hermite => rfl
          | homogeneousHermite => exact absurd hl c0
          | _ => rw [hl, Closure.equations] at hi; simp at hi
        rw [hlow i hi, hc.atLower ch i (by omega)]
        ring
    · refine Finset.sum_congr rfl fun k hk => ?_
      rw [Finset.mem_range] at hk
      dsimp only
      rw [← hc.value k hk, splineValue,
        show lower.values p + (lower.equations p - lower.values p + k) = lower.equations p + k by omega]
      congr 1
      refine Finset.sum_congr rfl fun J _ => ?_
      rw [condition, if_neg (by omega), if_pos (by omega), Nat.add_sub_cancel_left]
  · by_cases c0 : upper = .homogeneousHermite
    · rw [Closure.values, if_pos c0, Finset.sum_range_zero]
      symm
      refine Finset.sum_eq_zero fun i hi => ?_
      rw [Finset.mem_range] at hi
      rw [hupp i hi, hc.atUpper0 c0 i (by omega), zero_mul, mul_zero]
    · have ev : upper.values p = upper.equations p := by rw [Closure.values, if_neg c0]
      rw [ev]
      refine Finset.sum_congr rfl fun i hi => ?_
      rw [Finset.mem_range] at hi
      have ch : upper = .hermite := by
        cases hl : upper with
        | hermite => rfl
        | homogeneousHermite => exact absurd hl c0
        | _ => rw [hl, Closure.equations] at hi; simp at hi
      dsimp only
      rw [hupp i hi, hc.atUpper ch i (by omega),
        show lower.equations p + N + upper.equations p - upper.equations p + i = lower.equations p + N + i by omega]
      ring

/-- The sum of the data multiplied by the coefficients is the integral of the interpolating spline, and the
coefficients are on the meshes of the data. -/
theorem C43_quadrature_partial (h : bs.Is per p n t) (hI : HasIntegrals bs per p n t) {L : Lapack K} (hL : L.Exact)
    {σ : Sched} (hσ : σ.Valid) {lower upper : Closure} {s N : Nat} {coord : Elem Unit → Res K} {X : Nat → K}
    (hX : PointsIn t p n s N coord X) {B : Builder K}
    (hB : Builder.mk' L σ bs lower upper (seg () s (s + N)) coord = .ok B)
    (hoff : 0 ≤ B.offset ∧ B.offset ≤ p) (hper : per = true → p < n) {G : Nat → Nat → K} {nb : Nat}
    (hnb : nb = if per then n else n + p)
    (hG : G = collocation (condition t p n (edgeEquations lower p) N X ((t (p + n) - t p) / n)) (n + p) nb B.offset)
    (hclean : B.matrix.Clean) (htiny : ∀ i j, i < nb → j < nb → |G i j| < 1 / 10 ^ 15 → G i j = 0)
    (hsym : bs.isUniform = true → ∀ i j, i < nb → j < nb → B.matrix.Same (i, j) (j, i) → G i j = G j i)
    {σ' : Sched} (hσ' : σ'.Valid) {sched : List Nat}
    (hsched : sched.Perm (List.range (if bs.isUniform then p else if per then n else n + p)))
    (hhl : lower = .homogeneousHermite → p < 2) (hhu : upper = .homogeneousHermite → p < 2)
    (hw : per = true → B.offset = 0 ∨ ∀ i j, i < n → j < n → t (i + p + 1) - t i = t (j + p + 1) - t j) :
    ∃ ql q qu, B.quadrature L σ' sched = .ok (ql, q, qu) ∧
      ql.dom = seg () (p % 2) (p % 2 + edgeEquations lower p) ∧ q.dom = seg () s (s + N) ∧
      qu.dom = seg () (p % 2) (p % 2 + edgeEquations upper p) ∧
      ∃ wl w wu : Nat → K, (∀ i, i < edgeEquations lower p → ql.data.val i = some (wl i)) ∧
        (∀ k, k < N → q.data.val k = some (w k)) ∧
        (∀ i, i < edgeEquations upper p → qu.data.val i = some (wu i)) ∧
        ∀ v dl du c : Nat → K, Interpolates t p n N X lower upper v dl du c →
          (per = true → ∀ i, i < p → c (n + i) = c i) →
          IsIntegralOf t (t (p + n)) p (p + n) (splineValue t p n c)
            (∑ i ∈ Finset.range (edgeEquations lower p), wl i * dl i + ∑ k ∈ Finset.range N, w k * v k +
              ∑ i ∈ Finset.range (edgeEquations upper p), wu i * du i) := by
  have hE : Ends t p n := ⟨h.mono, h.cells, h.first, h.last⟩
  have hev : ∀ c : Closure, (c = .homogeneousHermite → p < 2) → c.values p = c.equations p := by
    intro c hc
    rw [Closure.values]
    split_ifs with c0
    · have := hc c0
      rw [c0]
      change 0 = p / 2
      omega
    · rfl
  have hoff0 : per = false → B.offset = 0 := by
    intro hpe
    obtain ⟨-, rfl, -, -, -, -, eo, -⟩ := builder_inv h hX.small hB
    rw [computeOffset, h.periodic, hpe] at eo
    exact (Res.ok.inj eo).symm
  obtain ⟨ql, q, qu, e, d1, d2, d3, wl, w, wu, v1, v2, v3, hsum⟩ := C43_sum h hI hL hσ hX hB hoff hper hnb hG hclean
    htiny hsym hσ' hsched
  rw [hev lower hhl] at d1 d2 v1 v2 hsum
  rw [hev upper hhu] at d2 d3 v2 v3 hsum
  simp only [Nat.sub_self, Nat.add_zero, Nat.zero_add] at d2 v2 hsum
  rw [← equations_eq, ← equations_eq]
  refine ⟨ql, q, qu, e, d1, d2, d3, wl, w, wu, v1, v2, v3, fun v dl du c hc hcp => ?_⟩
  rw [hsum v dl du c hc hcp]
  have hint := isIntegralOf_spline hE c
  suffices hs : ∑ j ∈ Finset.range nb, c ((j + B.offset.toNat) % nb) * intVal per p n t j =
      ∑ J ∈ Finset.range (n + p), c J * total t p n J by rw [hs]; exact hint
  cases hpe : per
  · rw [hpe] at hnb
    simp only [Bool.false_eq_true, if_false] at hnb
    rw [hnb]
    refine Finset.sum_congr rfl fun j hj => ?_
    rw [hoff0 hpe, Int.toNat_zero, Nat.add_zero, Nat.mod_eq_of_lt (Finset.mem_range.1 hj), intVal, if_neg (by simp)]
  · rw [hpe] at hnb
    simp only [if_true] at hnb
    rw [hnb, periodic_total hE (h.rep hpe) (hcp hpe)]
    have hiv : ∀ j ∈ Finset.range n, intVal true p n t j = (t (j + p + 1) - t j) / ((p + 1 : Nat) : K) := by
      intro j hj
      rw [intVal, if_pos rfl, if_pos (Finset.mem_range.1 hj)]
    rcases hw hpe with h0 | h0
    · refine Finset.sum_congr rfl fun j hj => ?_
      rw [h0, Int.toNat_zero, Nat.add_zero, Nat.mod_eq_of_lt (Finset.mem_range.1 hj), hiv j hj]
    · have hcst : ∀ j ∈ Finset.range n, intVal true p n t j = (t (0 + p + 1) - t 0) / ((p + 1 : Nat) : K) := by
        intro j hj
        rw [hiv j hj, h0 j 0 (Finset.mem_range.1 hj) h.cells]
      rw [Finset.sum_congr rfl fun j hj => by rw [hcst j hj], ← Finset.sum_mul, sum_shift, Finset.sum_mul]
      exact Finset.sum_congr rfl fun j hj => by rw [← hiv j hj, hcst j hj]

/-- The uniform B-splines satisfy the condition on the mesh. -/
theorem C43_uniform_widths {a b : K} (i j : Nat) :
    uniformKnot a b n p (i + p + 1) - uniformKnot a b n p i =
      uniformKnot a b n p (j + p + 1) - uniformKnot a b n p j := by
  simp only [uniformKnot]
  push_cast
  ring

/-- Defect: with a homogeneous Hermite closure, from degree 2 on, the coefficients that are returned for the points
are not on the interpolation mesh: there are more of them than points. -/
theorem C43_homogeneous (h : bs.Is per p n t) (hI : HasIntegrals bs per p n t) {L : Lapack K} (hL : L.Exact) {σ : Sched}
    (hσ : σ.Valid) {lower upper : Closure} {s N : Nat} {coord : Elem Unit → Res K} {X : Nat → K}
    (hX : PointsIn t p n s N coord X) {B : Builder K}
    (hB : Builder.mk' L σ bs lower upper (seg () s (s + N)) coord = .ok B)
    (hoff : 0 ≤ B.offset ∧ B.offset ≤ p) (hper : per = true → p < n) {G : Nat → Nat → K} {nb : Nat}
    (hnb : nb = if per then n else n + p)
    (hG : G = collocation (condition t p n (edgeEquations lower p) N X ((t (p + n) - t p) / n)) (n + p) nb B.offset)
    (hclean : B.matrix.Clean) (htiny : ∀ i j, i < nb → j < nb → |G i j| < 1 / 10 ^ 15 → G i j = 0)
    (hsym : bs.isUniform = true → ∀ i j, i < nb → j < nb → B.matrix.Same (i, j) (j, i) → G i j = G j i)
    {σ' : Sched} (hσ' : σ'.Valid) {sched : List Nat}
    (hsched : sched.Perm (List.range (if bs.isUniform then p else if per then n else n + p)))
    (hp2 : 2 ≤ p) (hhom : lower = .homogeneousHermite ∨ upper = .homogeneousHermite) :
    ∃ ql q qu k, B.quadrature L σ' sched = .ok (ql, q, qu) ∧ q.dom = seg () s (s + k) ∧ N < k ∧
      q.dom ≠ seg () s (s + N) := by
  obtain ⟨ql, q, qu, e, -, d2, -⟩ := C43_sum h hI hL hσ hX hB hoff hper hnb hG hclean htiny hsym hσ' hsched
  obtain ⟨-, -, -, -, -, -, -, hN, -⟩ := builder_inv h hX.small hB
  have hsm := h.small
  have hxs := hX.small
  have hlo : lower.equations p ≤ p / 2 := by rw [Closure.equations]; split_ifs <;> omega
  have hup : upper.equations p ≤ p / 2 := by rw [Closure.equations]; split_ifs <;> omega
  have hk : N < N + (lower.equations p - lower.values p) + (upper.equations p - upper.values p) := by
    have hv : ∀ c : Closure, c = .homogeneousHermite → c.values p < c.equations p := by
      rintro c rfl
      change 0 < p / 2
      omega
    rcases hhom with c | c
    · have := hv _ c; omega
    · have := hv _ c; omega
  refine ⟨ql, q, qu, _, e, d2, hk, ?_⟩
  rw [d2]
  intro he
  simp only [seg, List.cons.injEq, Prod.mk.injEq, and_true, true_and] at he
  have := congrArg BitVec.toNat he
  rw [BitVec.toNat_ofNat, BitVec.toNat_ofNat] at this
  omega

/-! ### A periodic non-uniform case -/

def shiftBreaks : List Rat := [0, 1, 2, 3, 4, 6]

def shiftKnots (k : Nat) : Rat := [-4, -3, -2, 0, 1, 2, 3, 4, 6, 7, 8, 9].getD k 0

def shiftPoints (k : Nat) : Rat := [0, 1, 2, 3, 4].getD k 0

def shiftMatrix (i j : Nat) : Rat :=
  ([[7 / 12, 1 / 3, 0, 0, 1 / 12], [1 / 8, 17 / 24, 1 / 6, 0, 0], [0, 1 / 6, 2 / 3, 1 / 6, 0],
    [0, 0, 1 / 6, 17 / 24, 1 / 8], [1 / 12, 0, 0, 1 / 3, 7 / 12]].getD i []).getD j 0

theorem bspline_congr {t t' : Nat → K} {m : Nat} (b : K) (x : K) (p i : Nat) (h : ∀ k, k < m → t k = t' k)
    (hi : i + p + 1 < m) : bspline t b p i x = bspline t' b p i x := by
  induction p generalizing i with
  | zero =>
    have : InCell t b x i ↔ InCell t' b x i := by
      simp only [InCell]
      rw [h i (by omega), h (i + 1) (by omega)]
    simp only [bspline, this]
  | succ p ih =>
    simp only [bspline]
    rw [ih i (by omega), ih (i + 1) (by omega), h i (by omega), h (i + p + 1) (by omega), h (i + p + 2) (by omega),
      h (i + 1) (by omega)]

theorem shift_matrix {t : Nat → Rat} (ht : ∀ k, k < 12 → t k = shiftKnots k) : ∀ i < 5, ∀ j < 5,
    collocation (condition t 3 5 (edgeEquations .periodic 3) 5 shiftPoints
      ((t (3 + 5) - t 3) / (5 : Nat))) (5 + 3) 5 1 i j = shiftMatrix i j := by
  intro i hi j hj
  have : collocation (condition t 3 5 (edgeEquations .periodic 3) 5 shiftPoints ((t (3 + 5) - t 3) / (5 : Nat))) (5 + 3) 5 1 i j =
      collocation (condition shiftKnots 3 5 0 5 shiftPoints 1) (5 + 3) 5 1 i j := by
    rw [collocation, collocation]
    refine Finset.sum_congr rfl fun J hJ => ?_
    rw [Finset.mem_range] at hJ
    have hc : condition t 3 5 (edgeEquations .periodic 3) 5 shiftPoints ((t (3 + 5) - t 3) / (5 : Nat)) i J =
        condition shiftKnots 3 5 0 5 shiftPoints 1 i J := by
      rw [condition, condition, show edgeEquations .periodic 3 = 0 from rfl]
      simp only [if_neg (show ¬i < 0 by omega), if_pos (show i < 0 + 5 by omega)]
      rw [ht (3 + 5) (by omega), bspline_congr _ _ _ _ ht (by omega)]
    rw [hc]
  rw [this]
  clear this ht
  revert j
  revert i
  decide +kernel

/-- Defect: the code ignores the shift of the unknowns.  Degree 3, cells `[0, 1]`, `[1, 2]`, `[2, 3]`, `[3, 4]`,
`[4, 6]`, the points are the break points: the sum is `5/4` for data whose interpolating spline has the integral `1`. -/
theorem C43_shift_ignored {L : Lapack Rat} (hL : L.Exact) {σ : Sched} (hσ : σ.Valid) :
    ∃ u t B, NUBS.mk' 3 true shiftBreaks = .ok u ∧ (BSpl.nonUniform u).Is true 3 5 t ∧
      Builder.mk' L σ (.nonUniform u) .periodic .periodic (seg () 0 5) (listPoints [0, 1, 2, 3, 4]) = .ok B ∧
      ∃ (ql q qu : Chunk1 Rat) (w v c : Nat → Rat), B.quadrature L σ [0, 1, 2, 3, 4] = .ok (ql, q, qu) ∧
        q.dom = seg () 0 5 ∧ (∀ k, k < 5 → q.data.val k = some (w k)) ∧
        (∀ k, k < 5 → splineValue t 3 5 c (shiftPoints k) = v k) ∧ (∀ i, i < 3 → c (5 + i) = c i) ∧
        IsIntegralOf t (t (3 + 5)) 3 (3 + 5) (splineValue t 3 5 c) 1 ∧
        ∑ k ∈ Finset.range 5, w k * v k = 5 / 4 := by
  have hgb : GoodBreaks shiftBreaks := ⟨by decide, (isSorted_iff _).1 (by decide +kernel), by decide +kernel,
    by decide +kernel⟩
  obtain ⟨u, t, eu, hu, -, hI⟩ := hasIntegrals_nonUniform (p := 3) (by norm_num) true hgb (by simp [shiftBreaks])
    (.inl (by norm_num))
  change (BSpl.nonUniform u).Is true 3 5 t at hu
  change HasIntegrals (BSpl.nonUniform u) true 3 5 t at hI
  have ht : ∀ k, k < 12 → t k = shiftKnots k := by
    intro k hk
    have h1 := hu.knot k (by omega)
    have h2 : ∀ k < 12, (NUBS.mk' 3 true shiftBreaks >>= fun u => (BSpl.nonUniform u).knot (el () k)) =
        .ok (shiftKnots k) := by
      decide +kernel
    have h2 := h2 k hk
    rw [eu, Res.ok_bind, h1] at h2
    exact Res.ok.inj h2
  have hmat := shift_matrix ht
  have hX : PointsIn t 3 5 0 5 (listPoints [0, 1, 2, 3, 4]) shiftPoints :=
    ⟨by norm_num, fun k hk => by interval_cases k <;> decide +kernel,
      fun k hk => by rw [ht 3 (by omega)]; interval_cases k <;> decide +kernel,
      fun k hk => by rw [ht (3 + 5) (by omega)]; interval_cases k <;> decide +kernel⟩
  have hgo : (NUBS.mk' 3 true shiftBreaks >>= fun u =>
      checkValidGrid (.nonUniform u) .periodic .periodic (seg () 0 5) (listPoints [0, 1, 2, 3, 4])) = .ok () := by
    decide +kernel
  have hof : (NUBS.mk' 3 true shiftBreaks >>= fun u =>
      computeOffset (.nonUniform u) (seg () 0 5) (listPoints [0, 1, 2, 3, 4])) = .ok 1 := by
    decide +kernel
  rw [eu, Res.ok_bind] at hgo hof
  have hm : allocateMatrix (.nonUniform u) (Closure.periodic.blockSize (BSpl.nonUniform u).isUniform 3
      (Closure.periodic.equations 3)) (Closure.periodic.blockSize (BSpl.nonUniform u).isUniform 3
      (Closure.periodic.equations 3)) = .ok (mkDense (BitVec.ofNat 64 5)) := by
    rw [allocateMatrix, hu.degree, hu.nbasis, hu.periodic]
    rfl
  have hsmall : ∀ i j, i < 5 → j < 5 → |collocation (condition t 3 5 (edgeEquations .periodic 3) 5 shiftPoints
      ((t (3 + 5) - t 3) / (5 : Nat))) (5 + 3) 5 1 i j| < 1 / 10 ^ 15 → collocation (condition t 3 5
        (edgeEquations .periodic 3) 5 shiftPoints ((t (3 + 5) - t 3) / (5 : Nat))) (5 + 3) 5 1 i j = 0 := by
    intro i j hi hj
    rw [hmat i hi j hj]
    revert j
    revert i
    have : ∀ i < 5, ∀ j < 5, |shiftMatrix i j| < 1 / 10 ^ 15 → shiftMatrix i j = 0 := by decide +kernel
    exact fun i hi j hj => this i hi j hj
  obtain ⟨B, eB, ho, hcl⟩ := (C41_constructs_dense hu hL σ (lower := .periodic) (upper := .periodic) (by simp [Fits])
    hX hgo hof (by norm_num) (by norm_num) (nb := 5) rfl rfl rfl hm).1 (by
      refine (Regular.congr fun i j hi hj => hmat i hi j hj).2 fun x hx j hj => ?_
      have h0 := hx 0 (by norm_num)
      have h1 := hx 1 (by norm_num)
      have h2 := hx 2 (by norm_num)
      have h3 := hx 3 (by norm_num)
      have h4 := hx 4 (by norm_num)
      simp [Finset.sum_range_succ, shiftMatrix] at h0 h1 h2 h3 h4
      interval_cases j <;> linarith)
  have hoff : B.offset.toNat = 1 := by rw [ho]; rfl
  obtain ⟨ql, q, qu, e, -, d2, -, wl, w, wu, -, v2, -, hsum⟩ := C43_sum hu hI hL hσ hX eB (by rw [ho]; norm_num)
    (by norm_num) (nb := 5) rfl (by rw [ho]) hcl hsmall (by simp [BSpl.isUniform]) hσ (sched := [0, 1, 2, 3, 4])
    (by simp [BSpl.isUniform]; decide)
  have hc3 : ∀ i, i < 3 → (fun J => if J = 3 then (1 : Rat) else 0) (5 + i) = (fun J => if J = 3 then (1 : Rat) else 0) i := by
    intro i hi
    interval_cases i <;> rfl
  refine ⟨u, t, B, eu, hu, eB, ql, q, qu, w, fun k => splineValue t 3 5 (fun J => if J = 3 then 1 else 0) (shiftPoints k),
    fun J => if J = 3 then 1 else 0, e, d2, fun k hk => v2 k (by omega), fun _ _ => rfl, hc3, ?_, ?_⟩
  · have hE : Ends t 3 5 := ⟨hu.mono, hu.cells, hu.first, hu.last⟩
    have := isIntegralOf_spline hE (fun J => if J = 3 then 1 else 0)
    rw [periodic_total hE (hu.rep rfl) hc3, Finset.sum_eq_single 3 (fun j _ hj => by rw [if_neg hj, zero_mul])
      (by simp), if_pos rfl, ht (3 + 3 + 1) (by norm_num), ht 3 (by norm_num),
      show (1 : Rat) * ((shiftKnots (3 + 3 + 1) - shiftKnots 3) / ((3 + 1 : Nat) : Rat)) = 1 by decide +kernel] at this
    exact this
  · have := hsum _ (fun _ => 0) (fun _ => 0) (fun J => if J = 3 then 1 else 0)
      ⟨fun k hk => rfl, by simp, by simp, by simp, by simp⟩ (fun _ => hc3)
    rw [hoff, Finset.sum_eq_single (s := Finset.range 5) (f := fun j => (if (j + 1) % 5 = 3 then 1 else 0) * intVal true 3 5 t j) 2
      (fun j hj hj' => by rw [Finset.mem_range] at hj; rw [if_neg (by omega), zero_mul]) (by simp), if_pos (by norm_num),
      intVal, if_pos rfl, if_pos (by norm_num), ht _ (by norm_num), ht _ (by norm_num)] at this
    rw [show (1 : Rat) * ((shiftKnots (2 + 3 + 1) - shiftKnots 2) / ((3 + 1 : Nat) : Rat)) = 5 / 4 by decide +kernel] at this
    rw [← this]
    simp [Closure.values, Closure.equations]

/-- All the hypotheses of `C43_quadrature_partial` hold for quadratic periodic B-splines on 3 uniform cells and the points
in the middle of the cells, although the unknowns are shifted. -/
example {L : Lapack Rat} (hL : L.Exact) {σ : Sched} (hσ : σ.Valid) : ∃ u B, UBS.mk' 2 true (0 : Rat) 3 3 = .ok u ∧
    Builder.mk' L σ (.uniform u) .periodic .periodic (seg () 0 3) (listPoints [1 / 2, 3 / 2, 5 / 2]) = .ok B ∧
    B.offset = 1 ∧ ∃ ql q qu, B.quadrature L σ [1, 0] = .ok (ql, q, qu) ∧ ∃ w : Nat → Rat,
      (∀ k, k < 3 → q.data.val k = some (w k)) ∧ ∀ c : Nat → Rat, (∀ i, i < 2 → c (3 + i) = c i) →
        IsIntegralOf (uniformKnot (0 : Rat) 3 3 2) (uniformKnot (0 : Rat) 3 3 2 (2 + 3)) 2 (2 + 3)
          (splineValue (uniformKnot (0 : Rat) 3 3 2) 2 3 c)
          (∑ k ∈ Finset.range 3, w k * splineValue (uniformKnot (0 : Rat) 3 3 2) 2 3 c ([1 / 2, 3 / 2, 5 / 2].getD k 0)) := by
  obtain ⟨u, eu, hu, hI⟩ := hasIntegrals_uniform (p := 2) (by norm_num) true (a := (0 : Rat)) (b := 3) (by norm_num)
    (n := 3) (by norm_num) (by norm_num) (by simp)
  have hgo : (UBS.mk' 2 true (0 : Rat) 3 (BitVec.ofNat 64 3) >>= fun u =>
      checkValidGrid (.uniform u) .periodic .periodic (seg () 0 3) (listPoints [1 / 2, 3 / 2, 5 / 2])) = .ok () := by
    decide +kernel
  have hof : (UBS.mk' 2 true (0 : Rat) 3 (BitVec.ofNat 64 3) >>= fun u =>
      computeOffset (.uniform u) (seg () 0 3) (listPoints [1 / 2, 3 / 2, 5 / 2])) = .ok 1 := by
    decide +kernel
  rw [eu, Res.ok_bind] at hgo hof
  have hm : allocateMatrix (.uniform u) 1 1 = .ok (mkDense (BitVec.ofNat 64 3)) := by
    rw [allocateMatrix, hu.degree, hu.nbasis, hu.periodic]
    rfl
  have hsmall : ∀ i j, i < 3 → j < 3 → |collocation (condition (uniformKnot (0 : Rat) 3 3 2) 2 3 0 3
      (fun k => [1 / 2, 3 / 2, 5 / 2].getD k 0) ((uniformKnot (0 : Rat) 3 3 2 (2 + 3) - uniformKnot (0 : Rat) 3 3 2 2) /
        (3 : Nat))) (3 + 2) 3 1 i j| < 1 / 10 ^ 15 → collocation (condition (uniformKnot (0 : Rat) 3 3 2) 2 3 0 3
      (fun k => [1 / 2, 3 / 2, 5 / 2].getD k 0) ((uniformKnot (0 : Rat) 3 3 2 (2 + 3) - uniformKnot (0 : Rat) 3 3 2 2) /
        (3 : Nat))) (3 + 2) 3 1 i j = 0 := by
    intro i j hi hj
    rw [example_matrix i hi j hj]
    split_ifs <;> intro h <;> norm_num [abs_of_pos] at h
  obtain ⟨B, eB, ho, hcl⟩ := (C41_constructs_dense hu hL σ (lower := .periodic) (upper := .periodic) (by simp [Fits])
    example_points hgo hof (by norm_num) (by norm_num) (nb := 3) rfl rfl rfl hm).1 (by
      refine (Regular.congr fun i j hi hj => example_matrix i hi j hj).2 fun x hx j hj => ?_
      have h0 := hx 0 (by norm_num)
      have h1 := hx 1 (by norm_num)
      have h2 := hx 2 (by norm_num)
      simp only [Finset.sum_range_succ, Finset.sum_range_zero] at h0 h1 h2
      norm_num at h0 h1 h2
      interval_cases j <;> linarith)
  obtain ⟨ql, q, qu, e, -, -, -, wl, w, wu, -, v2, -, hsum⟩ := C43_quadrature_partial hu hI hL hσ example_points eB
    (by rw [ho]; norm_num) (by norm_num) (nb := 3) rfl (by rw [ho]; rfl) hcl hsmall (fun _ i j hi hj _ => by
      rw [example_matrix i hi j hj, example_matrix j hj i hi]
      simp only [eq_comm]) hσ (sched := [1, 0]) (by simp [BSpl.isUniform]; decide) (by simp) (by simp)
    (fun _ => .inr fun i j _ _ => C43_uniform_widths i j)
  refine ⟨u, B, eu, eB, ho, ql, q, qu, e, w, v2, fun c hc => ?_⟩
  have := hsum _ (fun _ => 0) (fun _ => 0) c ⟨fun k hk => rfl, by simp, by simp, by simp, by simp⟩ (fun _ => hc)
  simpa [edgeEquations] using this

end DDC.Props
