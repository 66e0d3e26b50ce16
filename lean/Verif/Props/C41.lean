import Verif.Lemmas.BuilderLoops
import Verif.Props.C39

/-!
# C41: spline interpolation reproduces the data

* `C41_interpolates_partial`: the coefficients that `operator()` computes are those of a spline that takes
  the given values at the interpolation points and has the given derivatives at the ends, for all degrees,
  closures, meshes and batches, once the constructor has succeeded.
* `C41_offset`, `C41_negative_offset`: the shift of the periodic unknowns and what happens when it is
  negative.
-/

set_option linter.unusedSectionVars false

namespace DDC.Props

open One Dom LinProb Spec Builder

variable {K : Type} [Field K] [LinearOrder K] [IsStrictOrderedRing K]

/-- The spline with the coefficients `c` solves the interpolation problem: the values at the points `X`,
and the derivatives of orders `p % 2, p % 2 + 1, …` at the ends for the Hermite closures. -/
structure Interpolates (t : Nat → K) (p n N : Nat) (X : Nat → K) (lower upper : Closure) (v dl du : Nat → K)
    (c : Nat → K) : Prop where
  value : ∀ k, k < N → splineValue t p n c (X k) = v k
  atLower : lower = .hermite → ∀ i, i < p / 2 → splineDeriv t p n c p (i + p % 2) (t p) = dl i
  atLower0 : lower = .homogeneousHermite → ∀ i, i < p / 2 → splineDeriv t p n c p (i + p % 2) (t p) = 0
  atUpper : upper = .hermite → ∀ i, i < p / 2 →
    splineDeriv t p n c (p + n - 1) (i + p % 2) (t (p + n)) = du i
  atUpper0 : upper = .homogeneousHermite → ∀ i, i < p / 2 →
    splineDeriv t p n c (p + n - 1) (i + p % 2) (t (p + n)) = 0

/-- The derivatives given by the user are those that the closure needs: `p / 2` of them, from the order
`p % 2` on. -/
def GivenDerivs (c : Closure) (p cols : Nat) (d : Option (U64 × Mat K)) : Prop :=
  if c = .hermite then ∃ v, d = some (BitVec.ofNat 64 (p % 2), v) ∧ v.rows = p / 2 ∧ v.cols = cols
  else ∀ f v, d = some (f, v) → v.rows = 0

/-- The derivative number `i` of column `j`. -/
def derivAt (d : Option (U64 × Mat K)) (i j : Nat) : K :=
  match d with
  | some (_, v) => v.val i j
  | none => 0

theorem checkDerivs_ok {c : Closure} {p cols : Nat} {d : Option (U64 × Mat K)} (h : GivenDerivs c p cols d) :
    checkDerivs c (p % 2) d = .ok () := by
  rw [GivenDerivs] at h
  unfold checkDerivs
  split_ifs at h ⊢ with c1
  · obtain ⟨v, rfl, -⟩ := h
    simp
  · match d, h with
    | none, _ => rfl
    | some (f, v), h => simp [h f v rfl]

variable [FloorRing K]

variable {bs : BSpl K} {per : Bool} {p n : Nat} {t : Nat → K}

/-- What the constructor has done when it succeeds. -/
theorem builder_inv (h : bs.Is per p n t) {L : Lapack K} {σ : Sched} {lower upper : Closure} {s N : Nat}
    {coord : Elem Unit → Res K} (hs : s + N < 2 ^ 31) {B : Builder K}
    (hB : Builder.mk' L σ bs lower upper (seg () s (s + N)) coord = .ok B) :
    Fits per lower upper ∧ B.bs = bs ∧ B.lower = lower ∧ B.upper = upper ∧ B.dom = seg () s (s + N) ∧
      B.dx = (t (p + n) - t p) / (n : K) ∧ computeOffset bs (seg () s (s + N)) coord = .ok B.offset ∧
      lower.equations p + N + upper.equations p = (if per then n else n + p) ∧
      (checkValidGrid bs lower upper (seg () s (s + N)) coord = .ok ()) ∧
      ∃ m : LinProb K, Fresh m (if per then n else n + p) ∧
        (∀ x y, m.Same x y → x = y ∨ (bs.isUniform = true ∧ x = y.swap)) ∧
        buildMatrix bs lower upper (seg () s (s + N)) coord B.dx B.offset m = .ok B.matrix ∧
        B.matrix.setup L σ = .ok B.solver := by
  have hsm := h.small
  have hn := h.cells
  have hp := h.pos
  rw [Builder.mk', h.periodic] at hB
  obtain ⟨u0, e0, hB⟩ := Res.bind_eq_ok.1 hB
  have hf : Fits per lower upper := by
    have : (per == decide (lower = .periodic) && per == decide (upper = .periodic)) = true := by
      cases hb : (per == decide (lower = .periodic) && per == decide (upper = .periodic))
      · rw [hb] at e0; cases e0
      · rfl
    rw [Fits]
    cases per <;> simpa using this
  rw [h.rmax, Res.ok_bind, h.rmin, Res.ok_bind, h.ncells, Res.ok_bind] at hB
  dsimp only at hB
  obtain ⟨u1, e1, hB⟩ := Res.bind_eq_ok.1 hB
  obtain ⟨off, e2, hB⟩ := Res.bind_eq_ok.1 hB
  obtain ⟨m, e3, hB⟩ := Res.bind_eq_ok.1 hB
  obtain ⟨m', e4, hB⟩ := Res.bind_eq_ok.1 hB
  obtain ⟨S, e5, hB⟩ := Res.bind_eq_ok.1 hB
  obtain rfl := Res.ok.inj hB
  have en : (BitVec.ofNat 64 n).toNat = n := by rw [BitVec.toNat_ofNat]; omega
  rw [en] at e4
  have hlo : lower.equations p ≤ p / 2 := by rw [Closure.equations]; split_ifs <;> omega
  have hup : upper.equations p ≤ p / 2 := by rw [Closure.equations]; split_ifs <;> omega
  have hN : lower.equations p + N + upper.equations p = (if per then n else n + p) := by
    have e1' := e1
    rw [checkValidGrid, seg_size (by omega), Res.ok_bind, h.nbasis, Res.ok_bind, h.degree] at e1'
    obtain ⟨nb, hnb, hb⟩ : ∃ nb, (if per = true then n else n + p) = nb ∧ nb < 2 ^ 31 :=
      ⟨_, rfl, by split_ifs <;> omega⟩
    rw [hnb] at e1' ⊢
    by_cases c1 : BitVec.ofNat 64 (s + N - s) ≠
        BitVec.ofNat 64 nb - BitVec.ofNat 64 (lower.equations p) - BitVec.ofNat 64 (upper.equations p)
    · rw [if_pos c1] at e1'; cases e1'
    · have c := congrArg BitVec.toNat (not_not.1 c1)
      simp only [BitVec.toNat_sub, BitVec.toNat_ofNat] at c
      omega
  refine ⟨hf, rfl, rfl, rfl, rfl, ?_, e2, hN, e1, m, ?_⟩
  · dsimp only
    rw [en]
  · have hal : Fresh m (if per then n else n + p) ∧
        ∀ x y, m.Same x y → x = y ∨ (bs.isUniform = true ∧ x = y.swap) := by
      have hbl : ∀ (c : Closure) k, 0 ≤ c.blockSize bs.isUniform p k := by
        intro c k
        cases bs.isUniform <;> cases c <;> simp only [Closure.blockSize] <;> omega
      rw [allocateMatrix, h.degree, h.nbasis, h.periodic, Res.ok_bind] at e3
      have hbw : (0 : Int) ≤ (if bs.isUniform = true then (p : Int) / 2 else (p : Int) - 1) ∧
          (if bs.isUniform = true then (p : Int) / 2 else (p : Int) - 1) < p := by split_ifs <;> omega
      generalize (if bs.isUniform = true then (p : Int) / 2 else (p : Int) - 1) = bw at e3 hbw
      by_cases c : per = true
      · rw [if_pos c, if_pos c, sizeToInt_ofNat (by omega)] at e3
        rw [if_pos c]
        exact makePeriodic_ok (n := (n : Int)) (by omega) (by omega) hbw.1 hbw.1 (by omega) e3
      · rw [if_neg c, if_neg c, sizeToInt_ofNat (by omega)] at e3
        rw [if_neg c]
        exact makeBlocks_swap (n := ((n + p : Nat) : Int)) (by omega) (by omega) hbw.1 hbw.1 (hbl _ _) (hbl _ _)
          (by omega) e3
    exact ⟨hal.1, hal.2, by dsimp only; rw [en]; exact e4, e5⟩

/-- A system with the matrix of the conditions, rewritten for the coefficients. -/
theorem collocation_sum {R : Nat → Nat → K} {size nb : Nat} {off : Int} (hnb : 0 < nb) (x c : Nat → K)
    (hc : ∀ J, J < size → c J = x (((J : Int) - off) % (nb : Int)).toNat) (i : Nat) :
    ∑ j ∈ Finset.range nb, collocation R size nb off i j * x j = ∑ J ∈ Finset.range size, c J * R i J := by
  simp only [collocation, Finset.sum_mul]
  rw [Finset.sum_comm]
  refine Finset.sum_congr rfl fun J hJ => ?_
  have a1 := Int.emod_nonneg ((J : Int) - off) (show (nb : Int) ≠ 0 by omega)
  have a2 := Int.emod_lt_of_pos ((J : Int) - off) (show (0 : Int) < (nb : Int) by omega)
  rw [Finset.sum_eq_single (((J : Int) - off) % (nb : Int)).toNat]
  · rw [if_pos (by omega), hc J (Finset.mem_range.1 hJ), mul_comm]
  · intro j _ hj
    rw [if_neg (by omega), zero_mul]
  · intro hj
    exact absurd (Finset.mem_range.2 (by omega)) hj

/-- `operator()`, for a solver that solves the systems with the matrix `G`. -/
theorem apply_ok {B : Builder K} (h : B.bs.Is per p n t) (hf : Fits per B.lower B.upper) {nb N off extra : Nat}
    (hnb : nb = if per then n else n + p) (hN : B.lower.equations p + N + B.upper.equations p = nb)
    (hD : Dom.size B.dom = .ok (BitVec.ofNat 64 N)) {lo : Nat} (hlo' : lo = B.lower.equations p)
    (hN' : N < 2 ^ 31) (eoff : B.offset = off) (hoff : off ≤ p) (hnoff : nb + off ≤ n + p)
    (hoff0 : per = false → B.offset = 0) (hper : per = true → p < n) {L : Lapack K} {G : Nat → Nat → K}
    (hsolve : SolvesSystem L B.solver nb extra G) {rr : U64} (er : B.matrix.requiredRows = .ok rr)
    (hrr : rr.toNat = nb + extra) {σ : Sched} (hσ : σ.Valid) (junk : Nat → Nat → K) {spline vals : Mat K}
    {dmin dmax : Option (U64 × Mat K)}
    (hs : spline.rows = n + p) (hv : vals.rows = N) (hc : vals.cols = spline.cols)
    (hmin : GivenDerivs B.lower p spline.cols dmin) (hmax : GivenDerivs B.upper p spline.cols dmax) :
    ∃ spline', B.apply L σ junk spline vals dmin dmax = .ok spline' ∧ spline'.rows = n + p ∧
      spline'.cols = spline.cols ∧ ∀ j, j < spline.cols → ∃ x y : Nat → K, Solves false nb G x y ∧
        (∀ J, J < n + p → spline'.val J j = x (((J : Int) - off) % (nb : Int)).toNat) ∧
        (∀ k, k < N → y (lo + k) = vals.val k j) ∧
        (B.lower = .hermite → ∀ i, i < p / 2 → y i = derivAt dmin i j * B.dx ^ (i + p % 2)) ∧
        (B.lower = .homogeneousHermite → ∀ i, i < p / 2 → y i = 0) ∧
        (B.upper = .hermite → ∀ i, i < p / 2 → y (lo + N + i) = derivAt dmax i j * B.dx ^ (i + p % 2)) ∧
        (B.upper = .homogeneousHermite → ∀ i, i < p / 2 → y (lo + N + i) = 0) := by
  have hsm := h.small
  have hn := h.cells
  have hp := h.pos
  have hlo : B.lower.equations p ≤ p / 2 := by rw [Closure.equations]; split_ifs <;> omega
  have hup : B.upper.equations p ≤ p / 2 := by rw [Closure.equations]; split_ifs <;> omega
  have hnb0 : 0 < nb := by split_ifs at hnb <;> omega
  have en : ∀ x, x < 2 ^ 64 → (BitVec.ofNat 64 x).toNat = x := fun x hx => by
    rw [BitVec.toNat_ofNat, Nat.mod_eq_of_lt hx]
  have hderiv : ∀ (c : Closure) (d : Option (U64 × Mat K)), GivenDerivs c p spline.cols d → c = .hermite →
      ∀ f v, d = some (f, v) → v.rows = p / 2 ∧ v.cols = spline.cols := by
    intro c d hg hc f v hd
    rw [GivenDerivs, if_pos hc] at hg
    obtain ⟨v', rfl, h1, h2⟩ := hg
    obtain ⟨-, rfl⟩ := Prod.mk.inj (Option.some.inj hd)
    exact ⟨h1, h2⟩
  have hderiv' : ∀ (c : Closure) (d : Option (U64 × Mat K)), GivenDerivs c p spline.cols d → c = .hermite →
      ∃ f v, d = some (f, v) ∧ ∀ i j, derivAt d i j = v.val i j := by
    intro c d hg hc
    rw [GivenDerivs, if_pos hc] at hg
    obtain ⟨v', rfl, h1, h2⟩ := hg
    exact ⟨_, _, rfl, fun i j => rfl⟩
  have hherm : ∀ c : Closure, c = .hermite ∨ c = .homogeneousHermite → c.equations p = p / 2 := by
    rintro c (rfl | rfl) <;> rfl
  rw [apply, h.degree, hD, Res.ok_bind, en N (by omega), decide_eq_true hv, Res.guardAbort_true, Res.ok_bind,
    decide_eq_true hc, Res.guardAbort_true, Res.ok_bind]
  by_cases hz : vals.cols = 0
  · rw [if_pos hz]
    exact ⟨spline, rfl, hs, rfl, fun j hj => by omega⟩
  have hper' : per = true → B.lower.equations p = 0 ∧ B.upper.equations p = 0 := by
    intro hpe
    rw [Fits, if_pos hpe] at hf
    rw [hf.1, hf.2]
    exact ⟨rfl, rfl⟩
  have hzero : 0 < B.lower.equations p ∨ 0 < B.upper.equations p → off = 0 := by
    intro hc
    cases hpe : per
    · have := hoff0 hpe; omega
    · have := hper' hpe; omega
  obtain ⟨b1, e1, r1, c1, o1, p1, q1⟩ := closureRows_ok hσ (c := B.lower) (dx := B.dx) (lo := 0)
    (checkDerivs_ok hmin) (b := spline) (hderiv B.lower dmin hmin) (by rw [hs]; simp; omega) (by simp; omega)
  rw [if_neg hz, h.nbasis, ← hnb, Res.ok_bind, ofNat_sub (by omega), ofNat_sub (by omega),
    decide_eq_true (congrArg (BitVec.ofNat 64) (by omega)), Res.guardAbort_true, Res.ok_bind, checkDerivs_ok hmin,
    Res.ok_bind, checkDerivs_ok hmax, Res.ok_bind, e1, Res.ok_bind, eoff]
  simp only [show (0 : U64).toNat = 0 from rfl, Nat.zero_add, Nat.zero_le, true_and] at o1 p1 q1
  have e2 : fillRows (B.lower.equations p) off b1 = .ok ⟨b1.rows, b1.cols, fun r c =>
      if B.lower.equations p ≤ r ∧ (r : Int) < B.lower.equations p + off then 0 else b1.val r c⟩ :=
    if_pos (by omega)
  obtain ⟨b2, hb2⟩ : ∃ b2 : Mat K, b2 = ⟨b1.rows, b1.cols, fun r c =>
      if B.lower.equations p ≤ r ∧ (r : Int) < B.lower.equations p + off then 0 else b1.val r c⟩ := ⟨_, rfl⟩
  rw [← hb2] at e2
  have r2 : b2.rows = n + p := by rw [hb2]; exact r1.trans hs
  have c2 : b2.cols = spline.cols := by rw [hb2]; exact c1
  have o2 : ∀ r c, ¬(B.lower.equations p ≤ r ∧ r < B.lower.equations p + off) → b2.val r c = b1.val r c := by
    intro r c hr
    rw [hb2]
    exact if_neg (by omega)
  have e3 : putRows ((B.lower.equations p : Int) + off) vals b2 = .ok ⟨b2.rows, b2.cols, fun r c =>
      if (B.lower.equations p : Int) + off ≤ r ∧ (r : Int) < (B.lower.equations p : Int) + off + vals.rows then
        vals.val ((r : Int) - ((B.lower.equations p : Int) + off)).toNat c else b2.val r c⟩ :=
    if_pos (by omega)
  obtain ⟨b3, hb3⟩ : ∃ b3 : Mat K, b3 = ⟨b2.rows, b2.cols, fun r c =>
      if (B.lower.equations p : Int) + off ≤ r ∧ (r : Int) < (B.lower.equations p : Int) + off + vals.rows then
        vals.val ((r : Int) - ((B.lower.equations p : Int) + off)).toNat c else b2.val r c⟩ := ⟨_, rfl⟩
  rw [← hb3] at e3
  have r3 : b3.rows = n + p := by rw [hb3]; exact r2
  have c3 : b3.cols = spline.cols := by rw [hb3]; exact c2
  have v3 : ∀ k c, k < N → b3.val (B.lower.equations p + k + off) c = vals.val k c := by
    intro k c hk
    rw [hb3]
    dsimp only
    rw [if_pos (by omega)]
    congr 1
    omega
  have o3 : ∀ r c, ¬(B.lower.equations p + off ≤ r ∧ r < B.lower.equations p + off + N) →
      b3.val r c = b2.val r c := by
    intro r c hr
    rw [hb3]
    exact if_neg (by omega)
  rw [e2, Res.ok_bind, e3, Res.ok_bind]
  have enb : (BitVec.ofNat 64 (nb - B.upper.equations p)).toNat = nb - B.upper.equations p := en _ (by omega)
  obtain ⟨b4, e4, r4, c4, o4, p4, q4⟩ := closureRows_ok hσ (c := B.upper) (dx := B.dx)
    (lo := BitVec.ofNat 64 (nb - B.upper.equations p))
    (checkDerivs_ok hmax) (b := b3) (by rw [c3]; exact hderiv B.upper dmax hmax) (by rw [enb]; omega) (by rw [enb]; omega)
  rw [enb] at o4 p4 q4
  obtain ⟨b5, e5, r5, c5, v5⟩ := toTr_ok hσ (nb := nb) (off := off) (spline := b4) (tr := ⟨rr.toNat, vals.cols, junk⟩)
    (by omega) (by dsimp only; omega) (by dsimp only; omega) (by omega)
  obtain ⟨b6, e6, r6, c6, s6, -⟩ := hsolve σ hσ false 0 b5 (by dsimp only at r5; omega)
  dsimp only at r5 c5 v5
  obtain ⟨b7, e7, r7, c7, v7⟩ := fromTr_ok hσ (nb := nb) (off := off) (spline := b4) (tr := b6)
    (by omega) (by omega) (by omega) (by omega)
  rw [ofNat_sub (by omega), e4, Res.ok_bind, er, Res.ok_bind, e5, Res.ok_bind, hrr, e6, Res.ok_bind, e7, Res.ok_bind, h.periodic]
  -- the system
  have hsys : ∀ j, j < spline.cols → Solves false nb G (fun i => b6.val i j) (fun i => b4.val (i + off) j) := by
    intro j hj i hi
    have := s6 j (by omega) i hi
    simp only [Nat.zero_add] at this
    rw [this, v5 i j (by omega) hi]
  have hrhs : ∀ j, j < spline.cols →
      (∀ k, k < N → b4.val (lo + k + off) j = vals.val k j) ∧
      (B.lower = .hermite → ∀ i, i < p / 2 → b4.val (i + off) j = derivAt dmin i j * B.dx ^ (i + p % 2)) ∧
      (B.lower = .homogeneousHermite → ∀ i, i < p / 2 → b4.val (i + off) j = 0) ∧
      (B.upper = .hermite → ∀ i, i < p / 2 →
        b4.val (lo + N + i + off) j = derivAt dmax i j * B.dx ^ (i + p % 2)) ∧
      (B.upper = .homogeneousHermite → ∀ i, i < p / 2 → b4.val (lo + N + i + off) j = 0) := by
    intro j hj
    refine ⟨fun k hk => ?_, fun hcl i hi => ?_, fun hcl i hi => ?_, fun hcl i hi => ?_, fun hcl i hi => ?_⟩
    · rw [o4 _ j (by omega) (by omega), hlo', v3 k j hk]
    · have hq := hherm _ (.inl hcl)
      have := hzero (.inl (by omega))
      obtain ⟨f, v, rfl, hd⟩ := hderiv' _ _ hmin hcl
      subst this
      rw [o4 _ j (by omega) (by omega), o3 _ _ (by omega), o2 _ _ (by omega), hd]
      exact p1 hcl f v rfl i j hi hj
    · have hq := hherm _ (.inr hcl)
      have := hzero (.inl (by omega))
      subst this
      rw [o4 _ j (by omega) (by omega), o3 _ _ (by omega), o2 _ _ (by omega)]
      exact q1 hcl i j hi hj
    · have hq := hherm _ (.inl hcl)
      have := hzero (.inr (by omega))
      obtain ⟨f, v, rfl, hd⟩ := hderiv' _ _ hmax hcl
      subst this
      have := p4 hcl f v rfl i j hi (by omega)
      rw [hd, ← this]
      congr 1
      omega
    · have hq := hherm _ (.inr hcl)
      have := hzero (.inr (by omega))
      subst this
      have := q4 hcl i j hi (by omega)
      rw [← this]
      congr 1
      omega
  cases hpe : per
  · have ho := hoff0 hpe
    obtain rfl : off = 0 := by omega
    rw [hpe] at hnb
    simp only [Bool.false_eq_true, if_false] at hnb
    refine ⟨b7, rfl, by omega, by omega, fun j hj => ⟨_, _, hsys j hj, fun J hJ => ?_, hrhs j hj⟩⟩
    rw [v7 J j (by omega), if_pos (by omega), Int.emod_eq_of_lt (by omega) (by omega)]
    congr 1
  · have hpn := hper hpe
    rw [hpe] at hnb
    simp only [if_true] at hnb
    subst hnb
    obtain ⟨b8, e8, r8, c8, v8⟩ := duplicate_ok hσ (p := p) (nb := nb) (off := off) (b := b7) (by omega) hoff
      (by omega) (by omega)
    refine ⟨b8, e8, by omega, by omega, fun j hj => ⟨_, _, hsys j hj, fun J hJ => ?_, hrhs j hj⟩⟩
    rw [v8 J j (by omega) hJ]
    split_ifs with ca cb
    · rw [v7 _ j (by omega), if_pos (by omega), show (J : Int) - off = (J + nb - off) + nb * (-1) by ring,
        Int.add_mul_emod_self_left, Int.emod_eq_of_lt (by omega) (by omega)]
      congr 1
      omega
    · rw [v7 _ j (by omega), if_pos (by omega), Int.emod_eq_of_lt (by omega) (by omega)]
      congr 1
      omega
    · rw [v7 _ j (by omega), if_pos (by omega), show (J : Int) - off = (J - nb - off) + nb * 1 by ring,
        Int.add_mul_emod_self_left, Int.emod_eq_of_lt (by omega) (by omega)]
      congr 1
      omega

/-- Once constructed, the builder computes the coefficients of a spline that solves the interpolation
problem, for any data, any number of columns and any order of the parallel loops; in a periodic dimension
the coefficients are periodic.

Missing: the entries of the matrix below `1e-15` and those of the blocks below `1e-14` that are not zero are
excluded, because the code drops them (`C39_tiny_entries`); the matrices that the code stores as symmetric
(uniform B-splines) must be symmetric (`C41_symmetric_storage`); the shift must be between `0` and the
degree (`C41_negative_offset`), and there must be more cells than the degree in a periodic dimension
(`C41_few_cells`). -/
theorem C41_interpolates_partial (h : bs.Is per p n t) {L : Lapack K} (hL : L.Exact) {σ : Sched} (hσ : σ.Valid)
    {lower upper : Closure} {s N : Nat} {coord : Elem Unit → Res K} {X : Nat → K}
    (hX : PointsIn t p n s N coord X) {B : Builder K}
    (hB : Builder.mk' L σ bs lower upper (seg () s (s + N)) coord = .ok B)
    (hoff : 0 ≤ B.offset ∧ B.offset ≤ p) (hper : per = true → p < n) {G : Nat → Nat → K} {nb : Nat}
    (hnb : nb = if per then n else n + p)
    (hG : G = collocation (condition t p n (edgeEquations lower p) N X ((t (p + n) - t p) / n)) (n + p) nb B.offset)
    (hclean : B.matrix.Clean) (htiny : ∀ i j, i < nb → j < nb → |G i j| < 1 / 10 ^ 15 → G i j = 0)
    (hsym : bs.isUniform = true → ∀ i j, i < nb → j < nb → B.matrix.Same (i, j) (j, i) → G i j = G j i)
    {σ' : Sched} (hσ' : σ'.Valid) (junk : Nat → Nat → K) (spline vals : Mat K) (dmin dmax : Option (U64 × Mat K))
    (hs : spline.rows = n + p) (hv : vals.rows = N) (hc : vals.cols = spline.cols)
    (hmin : GivenDerivs lower p spline.cols dmin) (hmax : GivenDerivs upper p spline.cols dmax) :
    ∃ spline', B.apply L σ' junk spline vals dmin dmax = .ok spline' ∧ spline'.rows = n + p ∧
      spline'.cols = spline.cols ∧ ∀ j, j < spline.cols →
        Interpolates t p n N X lower upper (fun k => vals.val k j) (fun i => derivAt dmin i j)
          (fun i => derivAt dmax i j) (fun J => spline'.val J j) ∧
        (per = true → ∀ i, i < p → spline'.val (n + i) j = spline'.val i j) := by
  have hxs := hX.small
  have hsm := h.small
  have hn := h.cells
  have hp := h.pos
  obtain ⟨hf, rfl, rfl, rfl, eD, edx, eo, hN, -, m, hm, hms, em, eS⟩ := builder_inv h hxs hB
  rw [← equations_eq] at hG
  set lower := B.lower with hlower
  set upper := B.upper with hupper
  set bs := B.bs with hbs
  rw [← hnb] at hN hm
  rw [← edx] at hG
  obtain ⟨off, eoff⟩ : ∃ o : Nat, B.offset = o := ⟨B.offset.toNat, by omega⟩
  have hoff0 : per = false → B.offset = 0 := by
    intro hpe
    rw [computeOffset, h.periodic, hpe] at eo
    exact (Res.ok.inj eo).symm
  have hlo : lower.equations p ≤ p / 2 := by rw [Closure.equations]; split_ifs <;> omega
  have hup : upper.equations p ≤ p / 2 := by rw [Closure.equations]; split_ifs <;> omega
  have hnb0 : 0 < nb := by split_ifs at hnb <;> omega
  have hnb1 : nb ≤ n + p := by split_ifs at hnb <;> omega
  have hnoff : nb + off ≤ n + p := by
    cases hpe : per
    · have := hoff0 hpe; omega
    · rw [hpe] at hnb; simp at hnb; omega
  rw [buildMatrix_same h hf hX hnb hN hoff.1 (by omega) B.dx hm em] at hsym
  obtain ⟨M1, M2, M3, M4⟩ := buildMatrix_is h hf hX hnb hN hoff.1 (by omega) hoff0 hper B.dx hG hm
    (fun i j k l hi hj hk hl hsame => by
      rcases hms _ _ hsame with e | ⟨hu, e⟩
      · obtain ⟨rfl, rfl⟩ := Prod.mk.inj e; rfl
      · obtain ⟨e1, e2⟩ := Prod.mk.inj e
        simp only at e1 e2
        subst e1 e2
        exact hsym hu _ _ hi hj hsame) (fun i j hi hj h => .inl (htiny i j hi hj h)) em
  have hdx : B.dx ≠ 0 := by
    rw [edx]
    exact div_ne_zero (sub_ne_zero.2 h.ends.ne') (Nat.cast_ne_zero.2 (by omega))
  have hpos : 0 < B.matrix.size.toNat := by rw [M2, hm.size]; exact hnb0
  have hsz : B.matrix.size.toNat = nb := by rw [M2, hm.size]
  have hsolve := C39_solves_partial hL hσ B.matrix M1 hpos hclean B.solver eS
  obtain ⟨rr, er, hrr⟩ := C39_required_rows B.matrix M1
  rw [hsz] at hsolve hrr
  obtain ⟨b', e, r, c, hcol⟩ := apply_ok h hf hnb hN (by rw [eD, seg_size (by omega), Nat.add_sub_cancel_left])
    (lo := lower.equations p) rfl (by omega) eoff (by omega) hnoff hoff0 hper hsolve er hrr hσ' junk hs hv hc hmin hmax
  refine ⟨b', e, r, c, fun j hj => ?_⟩
  obtain ⟨x, y, hx, hxy, hval, hl, hl0, hu, hu0⟩ := hcol j hj
  have hGx : ∀ i, i < nb → ∑ J ∈ Finset.range (n + p),
      b'.val J j * condition t p n (lower.equations p) N X B.dx i J = y i := by
    intro i hi
    have := hx i hi
    simp only [Bool.false_eq_true, if_false] at this
    rw [← this, ← collocation_sum (off := B.offset) hnb0 x (fun J => b'.val J j)
      (fun J hJ => by rw [hxy J hJ, eoff]) i]
    refine Finset.sum_congr rfl fun k hk => ?_
    rw [M4 i k hi (Finset.mem_range.1 hk), hG]
  have hherm : ∀ c : Closure, c = .hermite ∨ c = .homogeneousHermite → c.equations p = p / 2 := by
    rintro c (rfl | rfl) <;> rfl
  have hsc : ∀ (c : Nat → K) cell k z, ∑ J ∈ Finset.range (n + p), c J * (B.dx ^ k * basisDeriv t p cell k J z) =
      splineDeriv t p n c cell k z * B.dx ^ k := by
    intro c cell k z
    rw [splineDeriv, Finset.sum_mul]
    exact Finset.sum_congr rfl fun J _ => by ring
  have hlow : ∀ i, i < lower.equations p →
      splineDeriv t p n (fun J => b'.val J j) p (i + p % 2) (t p) * B.dx ^ (i + p % 2) = y i := by
    intro i hi
    rw [← hGx i (by omega), ← hsc]
    refine Finset.sum_congr rfl fun J _ => ?_
    rw [condition, if_pos hi]
  have hupp : ∀ i, i < upper.equations p →
      splineDeriv t p n (fun J => b'.val J j) (p + n - 1) (i + p % 2) (t (p + n)) * B.dx ^ (i + p % 2) =
        y (lower.equations p + N + i) := by
    intro i hi
    rw [← hGx _ (by omega), ← hsc]
    refine Finset.sum_congr rfl fun J _ => ?_
    rw [condition, if_neg (by omega), if_neg (by omega), Nat.add_sub_cancel_left]
  have hpow : ∀ k, B.dx ^ k ≠ 0 := fun k => pow_ne_zero k hdx
  refine ⟨⟨fun k hk => ?_, fun hcl i hi => ?_, fun hcl i hi => ?_, fun hcl i hi => ?_, fun hcl i hi => ?_⟩,
    fun hpe i hi => ?_⟩
  · rw [← hval k hk, ← hGx _ (by omega), splineValue]
    refine Finset.sum_congr rfl fun J _ => ?_
    rw [condition, if_neg (by omega), if_pos (by omega), Nat.add_sub_cancel_left]
  · have := hlow i (by rw [hherm _ (.inl hcl)]; exact hi)
    rw [hl hcl i hi] at this
    exact mul_right_cancel₀ (hpow _) this
  · have := hlow i (by rw [hherm _ (.inr hcl)]; exact hi)
    rw [hl0 hcl i hi] at this
    exact (mul_eq_zero.1 this).resolve_right (hpow _)
  · have := hupp i (by rw [hherm _ (.inl hcl)]; exact hi)
    rw [hu hcl i hi] at this
    exact mul_right_cancel₀ (hpow _) this
  · have := hupp i (by rw [hherm _ (.inr hcl)]; exact hi)
    rw [hu0 hcl i hi] at this
    exact (mul_eq_zero.1 this).resolve_right (hpow _)
  · have hpn := hper hpe
    rw [hpe] at hnb
    simp only [if_true] at hnb
    rw [hxy _ (by omega), hxy _ (by omega), hnb, show ((n + i : Nat) : Int) - off = (i - off) + n * 1 by push_cast; ring,
      Int.add_mul_emod_self_left]

end DDC.Props
