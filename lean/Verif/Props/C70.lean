import Verif.Lemmas.RoundedBuilder
import Verif.Props.C42
import Verif.Props.C59
import Verif.Props.C61

/-!
# C70 — the interpolation matrix with rounding
-/

namespace DDC.Props

open One Rounded Spec Finset

variable {fl : Rat → Rat}

/-! ## Non-uniform B-splines -/

/-- Specification: away from the first and the last `p - 1` rows and columns, a B-spline is not zero at a point only if
their numbers differ by less than `p`. -/
def Banded (t : Nat → Rat) (b : Rat) (p N : Nat) (X : Nat → Rat) : Prop :=
  ∀ i j, i < N → j < N → p ≤ i + 1 → i + p ≤ N → p ≤ j + 1 → j + p ≤ N → (i + p ≤ j ∨ j + p ≤ i) →
    bspline t b p j (X i) = 0

/-- Specification: the matrix `A` is that of the values of the `N` B-splines at the points `X`, with relative errors of
at most `ε`. -/
def MatrixNear (t : Nat → Rat) (b : Rat) (p N : Nat) (X : Nat → Rat) (A : Nat → Nat → Rat) (ε : Rat) : Prop :=
  ∀ i j, i < N → j < N → |A i j - bspline t b p j (X i)| ≤ ε * bspline t b p j (X i)

/-- `eval_basis` with rounding: the cell and the values do not depend on the content of the array. -/
theorem nubs_valuesR (hfl : RoundsAll fl) {u : NUBS Rat} {p n : Nat} {t : Nat → Rat} (hu : u.Is p n t)
    (hp : p ≤ 2 ^ 20) (g0 : t p < t (p + 1)) (g1 : t (p + n - 1) < t (p + n)) (x : Rat) (hx1 : t p ≤ x)
    (hx2 : x ≤ t (p + n)) : ∃ (m : Nat) (f : Nat → Rat), m < n ∧ InCell t (t (p + n)) x (m + p) ∧
      (∀ a : Arr Rat, a.size = p + 1 → ∃ v, Rounded.evalBasis fl u a x = .ok (v, el1 (BitVec.ofNat 64 m)) ∧
        v.size = p + 1 ∧ ∀ r, r ≤ p → v.val r = some (f r)) ∧
      (∀ r, r ≤ p → 0 ≤ f r) ∧ |∑ r ∈ range (p + 1), f r - 1| ≤ 6 * p / 2 ^ 53 ∧
      ∀ r, r ≤ p → |f r - bspline t (t (p + n)) p (m + r) x| ≤ 8 * p / 2 ^ 53 * bspline t (t (p + n)) p (m + r) x := by
  have hcl := hu.cells
  obtain ⟨c, e1, h3, h4, h5⟩ := rounded_cell hfl hu g0 g1 ⟨hx1, hx2⟩
  have hx := h5.le
  have h5' : InCell t (t (p + n)) x (c - p + p) := by rw [Nat.sub_add_cancel h3]; exact h5
  have hcc : t c < t (c + 1) := h5.lt
  obtain ⟨k1, k2, -⟩ := nubs_lines hfl hu.mono hp h3 hx.1 hx.2 hcc
  refine ⟨c - p, _, by omega, h5', fun values hv => ?_, k1, k2, fun r hr => ?_⟩
  · obtain ⟨s, e2, hl⟩ := Rounded.triangle (fl := fl) hu (x := x) (s0 := 1) h3 h4 p (le_refl _) (values.set 0 1) (p + 1)
      (by omega) (by simpa using hv) (by rw [Arr.set_val, if_pos rfl])
    have hd : decide (values.size = u.degree + 1) = true := by rw [hu.degree]; exact decide_eq_true hv
    refine ⟨s.values, ?_, hl.1, fun r hr => hl.2 r hr⟩
    rw [Rounded.evalBasis, hd, Res.guardAbort_true, Res.ok_bind, hu.rmin, Res.ok_bind, hu.rmax, Res.ok_bind,
      inside_ok hfl hx1 hx2, Res.ok_bind, e1, Res.ok_bind, NUBS.uid1_el, Res.ok_bind,
      rounded_checkCell hfl hu h3 h4 hx, Res.ok_bind, Arr.wr_ok (by omega), Res.ok_bind, hu.degree, e2, Res.ok_bind,
      hu.firstBspline h3 h4]
    rfl
  · have := (nubs_rel hfl hu.mono hp h3 hx.1 hx.2 hcc (le_refl p) hr).2.2
    rwa [tri_bspline (L := NUBS.nL t x c) (R := NUBS.nR t x c) hu.mono h5 1 p h3
      (fun j r _ _ => rfl) (fun j r _ _ => rfl) p r (le_refl _) hr, one_mul] at this

theorem nubs_assemble (hfl : RoundsAll fl) {u : NUBS Rat} {p n : Nat} {t : Nat → Rat} (hu : u.Is p n t)
    (hper : u.periodic = false) (hp' : p ≤ 2 ^ 20) (hsm : n + p < 2 ^ 31) (hpn : p ≤ n + 2) (g0 : t p < t (p + 1))
    (g1 : t (p + n - 1) < t (p + n)) {s : Nat} {coord : Elem Unit → Res Rat} {X : Nat → Rat}
    (hX : PointsIn t p n s (n + p) coord X) (hband : Banded t (t (p + n)) p (n + p) X) :
    ∃ m, Rounded.assemble fl (.nonUniform u) (seg () s (s + (n + p))) coord = .ok (0, m) ∧ m.Shaped ∧
      m.size.toNat = n + p ∧
      MatrixNear t (t (p + n)) p (n + p) X m.shown (8 * p / 2 ^ 53) ∧
      ∀ (c : Nat → Rat) (M : Rat), (∀ i, i < n + p → |c i| ≤ M) → ∀ i, i < n + p →
        (∃ y, Rounded.evalNoBc fl u (X i) (coefsOf (n + p) c) = .ok y ∧
          |y - ∑ j ∈ range (n + p), m.shown i j * c j| ≤ 9 / 8 * (p + 2) / 2 ^ 53 * M) ∧
        |splineValue t p n c (X i) - ∑ j ∈ range (n + p), m.shown i j * c j| ≤ 8 * p / 2 ^ 53 * M := by
  have hp := hu.pos
  have hn := hu.cells
  have hxs := hX.small
  have hex : ∀ k, ∃ (m : Nat) (f : Nat → Rat), k < n + p → m < n ∧ InCell t (t (p + n)) (X k) (m + p) ∧
      (∀ a : Arr Rat, a.size = p + 1 → ∃ v, Rounded.evalBasis fl u a (X k) = .ok (v, el1 (BitVec.ofNat 64 m)) ∧
        v.size = p + 1 ∧ ∀ r, r ≤ p → v.val r = some (f r)) ∧
      (∀ r, r ≤ p → 0 ≤ f r) ∧ |∑ r ∈ range (p + 1), f r - 1| ≤ 6 * p / 2 ^ 53 ∧
      ∀ r, r ≤ p → |f r - bspline t (t (p + n)) p (m + r) (X k)| ≤
        8 * p / 2 ^ 53 * bspline t (t (p + n)) p (m + r) (X k) := by
    intro k
    by_cases hk : k < n + p
    · obtain ⟨m, f, h⟩ := nubs_valuesR hfl hu hp' g0 g1 (X k) (hX.ge k hk) (hX.le k hk)
      exact ⟨m, f, fun _ => h⟩
    · exact ⟨0, fun _ => 0, fun h => absurd h hk⟩
  choose cell b hc using hex
  have hnb : u.nbasis = .ok (BitVec.ofNat 64 (n + p)) := by
    rw [nubs_nbasis hu, hper]; rfl
  have hrows : Rows fl (.nonUniform u) p (n + p) s (n + p) coord X cell b := by
    refine ⟨hu.degree, hnb, by omega, hsm, hxs, hX.coord, fun k hk => ?_, fun k hk a ha => ?_⟩
    · have := (hc k hk).1; omega
    · obtain ⟨v, e, hv, hb⟩ := (hc k hk).2.2.1 a ha
      refine ⟨v, ?_, hv, hb⟩
      rw [Spl.evalBasis, e, Res.ok_bind]
      rfl
  obtain ⟨m0, em, hf, hst, hsame⟩ := C54_blocks (K := Rat) ((n + p : Nat) : Int) ((p : Int) - 1) ((p : Int) - 1)
    ((p : Int) - 1) ((p : Int) - 1) false (by omega) (by omega) (by omega) (by omega) (by omega) (by omega) (by omega)
    (by simp)
  have hother : ∀ i j, i < n + p → ¬(cell i ≤ j ∧ j ≤ cell i + p) → bspline t (t (p + n)) p j (X i) = 0 := by
    intro i j hi hj
    rw [Spec.bspline_eq_piece hu.mono (hc i hi).2.1, Spec.piece_zero _ _ _ _ (by omega)]; simp
  have hzero : ∀ i j, i < n + p → j < n + p → ¬ m0.Stored i j → bspline t (t (p + n)) p j (X i) = 0 := by
    intro i j hi hj hns
    by_contra hne
    refine hns (hst i j ?_)
    by_contra hcond
    exact hne (hband i j hi hj (by omega) (by omega) (by omega) (by omega) (by omega))
  have hcol : ∀ i r, i < n + p → r ≤ p → (((cell i + r : Nat) : Int) - 0) % ((n + p : Nat) : Int) = ((cell i + r : Nat) : Int) := by
    intro i r hi hr
    have := (hc i hi).1
    rw [sub_zero]
    exact Int.emod_eq_of_lt (by omega) (by omega)
  have hb0 : ∀ i r, i < n + p → r ≤ p → bspline t (t (p + n)) p (cell i + r) (X i) = 0 → b i r = 0 := by
    intro i r hi hr hz
    have := (hc i hi).2.2.2.2.2 r hr
    rw [hz, mul_zero, sub_zero] at this
    exact abs_eq_zero.1 (le_antisymm this (abs_nonneg _))
  obtain ⟨m, e, g2, g3, g4⟩ := hrows.matrix (by omega) (le_refl 0) (by norm_num) hf (fun i r j hi hr hj => by
    by_cases hs : m0.Stored i j
    · exact .inl hs
    · right
      rw [hcol i r hi hr] at hj
      have hj' : cell i + r = j := by exact_mod_cast hj
      have := (hc i hi).1
      rw [hb0 i r hi hr (by rw [hj']; exact hzero i j hi (by omega) hs), abs_zero]
      norm_num)
  have hentry : ∀ i j, i < n + p → j < n + p → rowEntry p (n + p) 0 cell b i j =
      if cell i ≤ j ∧ j ≤ cell i + p then b i (j - cell i) else 0 := by
    intro i j hi hj
    split_ifs with c
    · refine rowEntry_at (by omega) (by omega) ?_
      rw [hcol i _ hi (by omega)]
      omega
    · by_contra hne
      obtain ⟨r, hr, ej, -⟩ := rowEntry_zero hne
      rw [hcol i r hi hr] at ej
      omega
  have hshown : ∀ i j, i < n + p → j < n + p → m.shown i j = if cell i ≤ j ∧ j ≤ cell i + p then b i (j - cell i) else 0 := by
    intro i j hi hj
    rw [← hentry i j hi hj]
    rcases g4 i j hi hj with ⟨k, l, hk, hl, hs, e⟩ | ⟨e, h⟩
    · rcases hsame _ _ hs with h | h
      · obtain ⟨rfl, rfl⟩ := Prod.mk.inj h
        exact e
      · exact absurd h.1 (by simp)
    · rcases h with h | ⟨h, -⟩
      · rw [e, h]
      · rw [e, hentry i j hi hj]
        split_ifs with c
        · rw [hb0 i _ hi (by omega)]
          rw [Nat.add_sub_cancel' c.1]
          exact hzero i j hi hj h
        · rfl
  have hnear : MatrixNear t (t (p + n)) p (n + p) X m.shown (8 * p / 2 ^ 53) := by
    intro i j hi hj
    rw [hshown i j hi hj]
    split_ifs with c
    · have := (hc i hi).2.2.2.2.2 (j - cell i) (by omega)
      rwa [Nat.add_sub_cancel' c.1] at this
    · rw [hother i j hi c]; simp
  refine ⟨m, ?_, g2, ?_, hnear, ?_⟩
  · rw [Rounded.assemble, Rounded.computeOffset, show Spl.periodic (.nonUniform u) = false from hper,
      if_neg (by simp), Res.ok_bind, Rounded.allocateMatrix, show Spl.periodic (.nonUniform u) = false from hper,
      show Spl.nbasis (.nonUniform u) = _ from hnb, show Spl.degree (.nonUniform u) = p from hu.degree]
    have e0 : (Spl.nonUniform u).isUniform = false := rfl
    rw [Res.ok_bind, sizeToInt_ofNat (by omega), e0]
    simp only [Bool.false_eq_true, if_false, Closure.blockSize, em, Res.ok_bind, e]
  · rw [g3, hf.size]; omega
  · intro c M hM i hi
    obtain ⟨q1, q2, q3, q4, q5, q6⟩ := hc i hi
    have hM0 : 0 ≤ M := (abs_nonneg _).trans (hM 0 (by omega))
    obtain ⟨f, hfe⟩ : ∃ f : Nat → Rat, f = fun j => if cell i ≤ j ∧ j ≤ cell i + p then b i (j - cell i) else 0 := ⟨_, rfl⟩
    have hfr : ∀ r, r ≤ p → f (cell i + r) = b i r := fun r hr => by
      rw [hfe]; dsimp only; rw [if_pos (by omega), Nat.add_sub_cancel_left]
    have hf0 : ∀ j, 0 ≤ f j := fun j => by
      rw [hfe]; dsimp only
      split_ifs with h
      · exact q4 _ (by omega)
      · exact le_refl _
    have hsum : ∑ j ∈ range (n + p), m.shown i j * c j = ∑ r ∈ range (p + 1), c (cell i + r) * f (cell i + r) := by
      rw [← cell_sum (c := cell i) (p := p) (N := n + p) (by omega) (f := fun j => c j * f j)
        (fun j hj => by rw [hfe]; dsimp only; rw [if_neg hj, mul_zero])]
      refine sum_congr rfl fun j hj => ?_
      rw [hshown i j hi (mem_range.1 hj), hfe, mul_comm]
    have hp0 : (0 : Rat) ≤ p := Nat.cast_nonneg p
    refine ⟨?_, ?_⟩
    · obtain ⟨v, ev, hv, hvr⟩ := q3 (Arr.uninit (p + 1)) rfl
      obtain ⟨y, ey, hy⟩ := sum1_near hfl hp' (m := cell i) (N := n + p) (by omega) (by omega) hM hv
        (f := f) (fun r hr => by rw [hfr r hr]; exact hvr r hr) hf0
      refine ⟨y, ?_, ?_⟩
      · rw [Rounded.evalNoBc, hu.degree, ev, Res.ok_bind]
        exact ey
      · rw [hsum]
        refine hy.trans ?_
        have hp1 : (p : Rat) ≤ 1048576 := by exact_mod_cast hp'
        have k2 : ∑ r ∈ range (p + 1), f (cell i + r) ≤ 18 / 17 := by
          rw [sum_congr rfl fun r hr => hfr r (Nat.lt_succ_iff.1 (mem_range.1 hr))]
          have h3 := (abs_le.1 q5).2
          have h4 : 6 * (p : Rat) / 2 ^ 53 ≤ 1 / 17 := by
            rw [div_le_iff₀ (by norm_num)]
            norm_num
            linarith
          linarith
        have k3 : 17 / 16 * ((p : Rat) + 2) / 2 ^ 53 * (M * ∑ r ∈ range (p + 1), f (cell i + r)) ≤
            17 / 16 * ((p : Rat) + 2) / 2 ^ 53 * (M * (18 / 17)) :=
          mul_le_mul_of_nonneg_left (mul_le_mul_of_nonneg_left k2 hM0) (by positivity)
        refine k3.trans (le_of_eq ?_)
        ring
    · rw [splineValue, ← sum_sub_distrib]
      refine (abs_sum_le_sum_abs _ _).trans ?_
      have hB : ∑ j ∈ range (n + p), bspline t (t (p + n)) p j (X i) = 1 := by
        rw [cell_sum (c := cell i) (p := p) (N := n + p) (by omega) (fun j hj => hother i j hi hj)]
        exact bspline_sum hu.mono q2 p (cell i) rfl
      have : ∀ j ∈ range (n + p), |c j * bspline t (t (p + n)) p j (X i) - m.shown i j * c j| ≤
          8 * p / 2 ^ 53 * M * bspline t (t (p + n)) p j (X i) := by
        intro j hj
        rw [mem_range] at hj
        have h0 := bspline_nonneg hu.mono q2 p j
        have h1 := hnear i j hi hj
        rw [mul_comm (c j), ← sub_mul, abs_mul, abs_sub_comm]
        calc _ ≤ 8 * p / 2 ^ 53 * bspline t (t (p + n)) p j (X i) * M :=
              mul_le_mul h1 (hM j hj) (abs_nonneg _) (by positivity)
          _ = _ := by ring
      refine (sum_le_sum this).trans (le_of_eq ?_)
      rw [← mul_sum, hB, mul_one]

/-- Specification: the points are in the domain; away from the ends, each point is between the first and the last inner
knots of the B-spline of the same number. -/
def Interlaced (t : Nat → Rat) (p n : Nat) (X : Nat → Rat) : Prop :=
  (∀ i, i < n + p → t p ≤ X i ∧ X i ≤ t (p + n)) ∧ ∀ i, p ≤ i + 1 → i ≤ n → t (i + 1) ≤ X i ∧ X i ≤ t (i + p)

theorem banded_of {p n : Nat} (hp : 0 < p) {t : Nat → Rat} (ht : Monotone t)
    (hst : ∀ c, p ≤ c → c < p + n → t c < t (c + 1)) {X : Nat → Rat} (hc : ∀ k, k < n + p → ∃ m, m < n ∧ InCell t (t (p + n)) (X k) (m + p))
    (hX : Interlaced t p n X) : Banded t (t (p + n)) p (n + p) X := by
  intro i j hi hj h1 h2 h3 h4 h5
  obtain ⟨m, hm, hcell⟩ := hc i hi
  obtain ⟨x1, x2⟩ := hX.2 i h1 (by omega)
  have hpos := hst (m + p) (by omega) (by omega)
  rw [bspline_eq_piece ht hcell]
  by_cases hz : m + p < j ∨ j + p < m + p
  · rw [piece_zero _ _ _ _ hz]; simp
  · unfold InCell at hcell
    rcases h5 with h5 | h5
    · have k1 : X i ≤ t j := x2.trans (ht h5)
      have k2 : t j ≤ t (m + p) := ht (by omega)
      have k3 : t (m + p) ≤ X i := by split_ifs at hcell <;> linarith [hcell.1]
      have hj' : j = m + p := by
        by_contra hne
        have : t j < t (m + p) := (hst j (by omega) (by omega)).trans_le (ht (by omega))
        linarith
      rw [hj', show X i = t (m + p) by linarith, piece_left_zero t hp]
    · have k1 : t (j + p + 1) ≤ X i := (ht (by omega)).trans x1
      have k2 : t (m + p + 1) ≤ t (j + p + 1) := ht (by omega)
      have k3 : X i ≤ t (m + p + 1) := by split_ifs at hcell <;> linarith [hcell.2]
      have hj' : j = m := by
        by_contra hne
        rcases Nat.lt_or_ge (m + p + 1) (p + n) with c | c
        · have : t (m + p + 1) < t (j + p + 1) := (hst _ (by omega) c).trans_le (ht (by omega))
          linarith
        · omega
      rw [hj', show X i = t (m + p + 1) by linarith, piece_right_zero t hp rfl]

theorem nubs_matrix (hfl : RoundsAll fl) (p : Nat) (hp : 0 < p) (hp' : p ≤ 2 ^ 20) (breaks : List Rat)
    (h2 : 2 ≤ breaks.length) (hb : ∀ i (h : i + 1 < breaks.length), breaks[i] < breaks[i + 1])
    (hpn : p ≤ breaks.length + 1) (hs : breaks.length + 2 * p < 2 ^ 31) :
    ∃ u t, NUBS.mk' p false breaks = .ok u ∧ NUBS.KnotsOf p false breaks t ∧ Monotone t ∧ u.Is p (breaks.length - 1) t ∧ u.periodic = false ∧
      ∀ (s : Nat) (coord : Elem Unit → Res Rat) (X : Nat → Rat), s + (breaks.length - 1 + p) < 2 ^ 31 →
        (∀ k, k < breaks.length - 1 + p → coord (el () (s + k)) = .ok (X k)) →
        Interlaced t p (breaks.length - 1) X →
        ∃ m, Rounded.assemble fl (.nonUniform u) (seg () s (s + (breaks.length - 1 + p))) coord = .ok (0, m) ∧ m.Shaped ∧
          m.size.toNat = breaks.length - 1 + p ∧
          MatrixNear t (t (p + (breaks.length - 1))) p (breaks.length - 1 + p) X m.shown (8 * p / 2 ^ 53) ∧
          ∀ (c : Nat → Rat) (M : Rat), (∀ i, i < breaks.length - 1 + p → |c i| ≤ M) → ∀ i, i < breaks.length - 1 + p →
            ∀ v ρ : Rat, |∑ j ∈ range (breaks.length - 1 + p), m.shown i j * c j - v| ≤ ρ →
              (∃ y, Rounded.evalNoBc fl u (X i) (coefsOf (breaks.length - 1 + p) c) = .ok y ∧
                |y - v| ≤ ρ + 9 / 8 * (p + 2) / 2 ^ 53 * M) ∧
              |splineValue t p (breaks.length - 1) c (X i) - v| ≤ ρ + 8 * p / 2 ^ 53 * M := by
  have hall : ∀ i j (_ : i < j) (h : j < breaks.length), breaks[i] < breaks[j] := by
    intro i j hij
    induction j with
    | zero => omega
    | succ j ih =>
      intro h
      rcases Nat.lt_or_ge i j with c | c
      · exact (ih c (by omega)).trans (hb j h)
      · obtain rfl : i = j := by omega
        exact hb i h
  have hg := GoodBreaks.of_strict h2 hall
  obtain ⟨u, t, e, hper, hu, hk⟩ := NUBS.mk'_is hp false h2 (by omega) hg.sorted hg.lt
  obtain ⟨g0, g1⟩ := goodEnds hg hk
  obtain ⟨n, hn⟩ : ∃ n, n = breaks.length - 1 := ⟨_, rfl⟩
  refine ⟨u, t, e, hk, hu.mono, hu, hper, fun s coord X hsN hco hX => ?_⟩
  rw [← hn] at hu hX hco hsN g1 ⊢
  have hst : ∀ c, p ≤ c → c < p + n → t c < t (c + 1) := by
    intro c c1 c2
    have a1 := hk.inner (c - p) (by omega)
    have a2 := hk.inner (c - p + 1) (by omega)
    rw [show p + (c - p) = c by omega] at a1
    rw [show p + (c - p + 1) = c + 1 by omega] at a2
    rw [a1, a2]
    exact hb _ _
  have hge : ∀ k, k < n + p → t p ≤ X k := fun k hk' => (hX.1 k hk').1
  have hle : ∀ k, k < n + p → X k ≤ t (p + n) := fun k hk' => (hX.1 k hk').2
  have hband := banded_of hp hu.mono hst (fun k hk' => by
    obtain ⟨m, -, h1, h2, -⟩ := nubs_valuesR hfl hu hp' g0 g1 (X k) (hge k hk') (hle k hk')
    exact ⟨m, h1, h2⟩) hX
  obtain ⟨m, em, hsh, hsz, hnear, hev⟩ := nubs_assemble hfl hu hper hp' (by omega) (by omega) g0 g1
    ⟨hsN, hco, hge, hle⟩ hband
  refine ⟨m, em, hsh, hsz, hnear, fun c M hM i hi v ρ hv => ?_⟩
  obtain ⟨⟨y, ey, hy⟩, hsp⟩ := hev c M hM i hi
  refine ⟨⟨y, ey, ?_⟩, ?_⟩
  · calc |y - v| ≤ |y - ∑ j ∈ range (n + p), m.shown i j * c j| + |∑ j ∈ range (n + p), m.shown i j * c j - v| :=
          abs_sub_le _ _ _
      _ ≤ _ := by linarith
  · calc |splineValue t p n c (X i) - v| ≤ |splineValue t p n c (X i) - ∑ j ∈ range (n + p), m.shown i j * c j| +
          |∑ j ∈ range (n + p), m.shown i j * c j - v| := abs_sub_le _ _ _
      _ ≤ _ := by linarith

/-- Non-uniform B-splines that are not periodic, closures `GREVILLE`, whatever the rounding, on points each of which is
between the inner knots of its B-spline: the assembly of the matrix succeeds; each entry is the value of the B-spline of
the column at the point of the row, with a relative error of at most `8 p 2⁻⁵³`.  So for every vector of coefficients, the
value that the evaluator computes at a point is the row of the system, up to `(9/8)(p + 2) 2⁻⁵³` times the largest
coefficient, and so is the exact spline, up to `8 p 2⁻⁵³` times the largest coefficient: a solution of the system with
small residuals is a spline that interpolates. -/
theorem C70_non_uniform (hfl : RoundsAll fl) (p : Nat) (hp : 0 < p) (hp' : p ≤ 2 ^ 20) (breaks : List Rat)
    (h2 : 2 ≤ breaks.length) (hb : ∀ i (h : i + 1 < breaks.length), breaks[i] < breaks[i + 1])
    (hpn : p ≤ breaks.length + 1) (hs : breaks.length + 2 * p < 2 ^ 31) :
    ∃ u t, NUBS.mk' p false breaks = .ok u ∧ NUBS.KnotsOf p false breaks t ∧ Monotone t ∧
      ∀ (s : Nat) (coord : Elem Unit → Res Rat) (X : Nat → Rat), s + (breaks.length - 1 + p) < 2 ^ 31 →
        (∀ k, k < breaks.length - 1 + p → coord (el () (s + k)) = .ok (X k)) →
        Interlaced t p (breaks.length - 1) X →
        ∃ m, Rounded.assemble fl (.nonUniform u) (seg () s (s + (breaks.length - 1 + p))) coord = .ok (0, m) ∧ m.Shaped ∧
          m.size.toNat = breaks.length - 1 + p ∧
          MatrixNear t (t (p + (breaks.length - 1))) p (breaks.length - 1 + p) X m.shown (8 * p / 2 ^ 53) ∧
          ∀ (c : Nat → Rat) (M : Rat), (∀ i, i < breaks.length - 1 + p → |c i| ≤ M) → ∀ i, i < breaks.length - 1 + p →
            ∀ v ρ : Rat, |∑ j ∈ range (breaks.length - 1 + p), m.shown i j * c j - v| ≤ ρ →
              (∃ y, Rounded.evalNoBc fl u (X i) (coefsOf (breaks.length - 1 + p) c) = .ok y ∧
                |y - v| ≤ ρ + 9 / 8 * (p + 2) / 2 ^ 53 * M) ∧
              |splineValue t p (breaks.length - 1) c (X i) - v| ≤ ρ + 8 * p / 2 ^ 53 * M := by
  obtain ⟨u, t, e, hk, hm, -, -, h⟩ := nubs_matrix hfl p hp hp' breaks h2 hb hpn hs
  exact ⟨u, t, e, hk, hm, h⟩

/-- The Greville points computed with rounding are such points, if the first and the last ones are in the domain and the
cells are not narrower than the rounding errors. -/
theorem greville_interlaced (hfl : RoundsAll fl) {p n : Nat} (hp : 2 ≤ p) (hp' : p ≤ 2 ^ 20) {t : Nat → Rat}
    (ht : ∀ i j, i ≤ j → j ≤ n + 2 * p → t i ≤ t j) (hlo : ∀ k, k ≤ p → t k = t p)
    (hhi : ∀ k, k ≤ p → t (p + n + k) = t (p + n)) {M : Rat}
    (hM : ∀ k, k ≤ n + 2 * p → |t k| ≤ M) (hst : ∀ c, p ≤ c → c < p + n → p * (p + 3) * M / 2 ^ 53 ≤ t (c + 1) - t c)
    (hn : 0 < n) (h0 : t p ≤ flAverage fl t p 0) (h1 : flAverage fl t p (n + p - 1) ≤ t (p + n)) :
    Interlaced t p n (flAverage fl t p) := by
  have hp0 : (0 : Rat) < p := by exact_mod_cast (show 0 < p by omega)
  have hM0 : 0 ≤ M := (abs_nonneg _).trans (hM 0 (by omega))
  have herr : ∀ i, i < n + p → |flAverage fl t p i - average t p i| ≤ (p + 3) * M / 2 ^ 53 := by
    intro i hi
    have hpM : 0 ≤ (p : Rat) * M := by positivity
    obtain ⟨r1, r2⟩ := abs_le.1 (flAverage_error hfl (by omega) hp' i (fun k hk => hM (i + 1 + k) (by omega)))
    exact abs_le.2 ⟨by linarith, by linarith⟩
  have hsum : ∀ i x, p * average t p i - p * x = ∑ k ∈ range p, (t (i + 1 + k) - x) := by
    intro i x
    rw [sum_sub_distrib, sum_const, card_range, nsmul_eq_mul, average]
    field_simp
  -- an average is a `p`-th of a cell away from the ends of an interval whose other end is among the knots
  have low : ∀ i x w, i < n + p → (∀ k, k < p → x ≤ t (i + 1 + k)) → w ≤ t (i + p) - x → w ≤ p * average t p i - p * x := by
    intro i x w hi hx hw
    rw [hsum]
    have := single_le_sum (f := fun k => t (i + 1 + k) - x) (s := range p)
      (fun k hk => sub_nonneg.2 (hx k (mem_range.1 hk))) (mem_range.2 (show p - 1 < p by omega))
    rw [show i + 1 + (p - 1) = i + p by omega] at this
    linarith
  have upp : ∀ i x w, i < n + p → (∀ k, k < p → t (i + 1 + k) ≤ x) → w ≤ x - t (i + 1) → w ≤ p * x - p * average t p i := by
    intro i x w hi hx hw
    have h := hsum i x
    have := single_le_sum (f := fun k => x - t (i + 1 + k)) (s := range p)
      (fun k hk => sub_nonneg.2 (hx k (mem_range.1 hk))) (mem_range.2 (show 0 < p by omega))
    rw [sum_sub_distrib] at h this
    rw [Nat.add_zero] at this
    linarith
  have low' : ∀ i x, i < n + p → (∀ k, k < p → x ≤ t (i + 1 + k)) → p * (p + 3) * M / 2 ^ 53 ≤ t (i + p) - x →
      x ≤ flAverage fl t p i := by
    intro i x hi hx hw
    have h2 := low i x _ hi hx hw
    have h3 : (p + 3) * M / 2 ^ 53 ≤ average t p i - x := by
      have : (p : Rat) * ((p + 3) * M / 2 ^ 53) ≤ p * (average t p i - x) := by
        rw [mul_sub]; refine le_trans (le_of_eq ?_) h2; ring
      exact le_of_mul_le_mul_left this hp0
    linarith [(abs_le.1 (herr i hi)).1]
  have upp' : ∀ i x, i < n + p → (∀ k, k < p → t (i + 1 + k) ≤ x) → p * (p + 3) * M / 2 ^ 53 ≤ x - t (i + 1) →
      flAverage fl t p i ≤ x := by
    intro i x hi hx hw
    have h2 := upp i x _ hi hx hw
    have h3 : (p + 3) * M / 2 ^ 53 ≤ x - average t p i := by
      have : (p : Rat) * ((p + 3) * M / 2 ^ 53) ≤ p * (x - average t p i) := by
        rw [mul_sub]; refine le_trans (le_of_eq ?_) h2; ring
      exact le_of_mul_le_mul_left this hp0
    linarith [(abs_le.1 (herr i hi)).2]
  have hin : ∀ i, i ≤ n + 2 * p → t p ≤ t i ∧ t i ≤ t (p + n) := by
    intro i hi
    constructor
    · rcases Nat.lt_or_ge i p with c | c
      · rw [hlo i c.le]
      · exact ht _ _ c hi
    · rcases Nat.lt_or_ge (p + n) i with c | c
      · rw [show i = p + n + (i - (p + n)) by omega, hhi _ (by omega)]
      · exact ht _ _ c (by omega)
  refine ⟨fun i hi => ⟨?_, ?_⟩, fun i c1 c2 => ⟨?_, ?_⟩⟩
  · rcases Nat.eq_zero_or_pos i with rfl | c
    · exact h0
    · refine low' i _ hi (fun k hk => (hin _ (by omega)).1) ((hst p (le_refl _) (by omega)).trans ?_)
      have := ht (p + 1) (i + p) (by omega) (by omega)
      linarith
  · rcases Nat.lt_or_ge i (n + p - 1) with c | c
    · refine upp' i _ hi (fun k hk => (hin _ (by omega)).2) ((hst (p + n - 1) (by omega) (by omega)).trans ?_)
      have := ht (i + 1) (p + n - 1) (by omega) (by omega)
      rw [Nat.sub_add_cancel (by omega)]
      linarith
    · rwa [show i = n + p - 1 by omega]
  · refine low' i _ (by omega) (fun k hk => ht _ _ (by omega) (by omega)) ((hst (i + 1) (by omega) (by omega)).trans ?_)
    have := ht (i + 1 + 1) (i + p) (by omega) (by omega)
    linarith
  · refine upp' i _ (by omega) (fun k hk => ht _ _ (by omega) (by omega)) ((hst (i + 1) (by omega) (by omega)).trans ?_)
    have := ht (i + 1 + 1) (i + p) (by omega) (by omega)
    linarith

/-- The same on the Greville points that DDC computes, when the first and the last ones are in the domain.
Missing: domains for which the rounding moves the first or the last Greville point out of the domain (see `C59_aborts`);
cells narrower than the rounding errors of the Greville points. -/
theorem C70_greville_partial (hfl : RoundsAll fl) (p : Nat) (hp : 2 ≤ p) (hp' : p ≤ 2 ^ 20) (breaks : List Rat)
    (h2 : 2 ≤ breaks.length) (hpn : p ≤ breaks.length + 1) (hs : breaks.length + 2 * p < 2 ^ 31) {M : Rat} (hM : 0 < M)
    (hM0 : -M ≤ breaks[0]) (hM1 : breaks[breaks.length - 1] ≤ M)
    (hb : ∀ i (h : i + 1 < breaks.length), p * (p + 3) * M / 2 ^ 53 ≤ breaks[i + 1] - breaks[i]) :
    ∃ u t s, NUBS.mk' p false breaks = .ok u ∧ NUBS.KnotsOf p false breaks t ∧ Rounded.grevilleOpen fl u = .ok s ∧
      ∀ x0 x1, s.coordinate (el () 0) = .ok x0 → s.coordinate (el () (breaks.length - 1 + p - 1)) = .ok x1 →
        breaks[0] ≤ x0 → x1 ≤ breaks[breaks.length - 1] →
        ∃ m X, (∀ i, i < breaks.length - 1 + p → s.coordinate (el () i) = .ok (X i)) ∧
          Rounded.assemble fl (.nonUniform u) (seg () 0 (0 + (breaks.length - 1 + p))) s.coordinate = .ok (0, m) ∧ m.Shaped ∧
          m.size.toNat = breaks.length - 1 + p ∧
          MatrixNear t (t (p + (breaks.length - 1))) p (breaks.length - 1 + p) X m.shown (8 * p / 2 ^ 53) := by
  have hp0 : (0 : Rat) < p := by exact_mod_cast (show 0 < p by omega)
  have hw : 0 < p * (p + 3) * M / 2 ^ 53 := by positivity
  obtain ⟨u, t, e, hk, hm, hu, hper, h⟩ := nubs_matrix hfl p (by omega) hp' breaks h2
    (fun i hi => by linarith [hb i hi]) hpn hs
  have ea : t p = breaks[0] := by
    have := hk.inner 0 (by omega)
    rwa [Nat.add_zero] at this
  obtain ⟨n, hn⟩ : ∃ n, n = breaks.length - 1 := ⟨_, rfl⟩
  have eb : t (p + n) = breaks[breaks.length - 1] := by rw [hn]; exact hk.inner _ (by omega)
  have hcl := fun k hk' => hk.clamped rfl k hk'
  rw [← hn] at hu h hcl
  have hcore : ∃ s, Rounded.grevilleOpen fl u = .ok s ∧ ∀ x0 x1, s.coordinate (el () 0) = .ok x0 →
      s.coordinate (el () (n + p - 1)) = .ok x1 → breaks[0] ≤ x0 → x1 ≤ breaks[breaks.length - 1] →
        ∃ m X, (∀ i, i < n + p → s.coordinate (el () i) = .ok (X i)) ∧
          Rounded.assemble fl (.nonUniform u) (seg () 0 (0 + (n + p))) s.coordinate = .ok (0, m) ∧ m.Shaped ∧
          m.size.toNat = n + p ∧ MatrixNear t (t (p + n)) p (n + p) X m.shown (8 * p / 2 ^ 53) := by
    have eg := grevilleOpen_eq (fl := fl) hu hper
    have hso : isSorted ((List.range (n + p)).map (flAverage fl t p)) = true := (isSorted_iff _).2 (by
      intro i j hij hj
      simp only [List.getElem_map, List.getElem_range]
      exact flAverage_mono hfl (fun i j hij => hm hij) hij)
    rw [NonUniform.mk', if_pos hso] at eg
    refine ⟨_, eg, fun x0 x1 e0 e1 b0 b1 => ?_⟩
    have hco : ∀ i, i < n + p → 
        NonUniform.coordinate ⟨(List.range (n + p)).map (flAverage fl t p), Elem.createReference ()⟩ (el () i) =
          .ok (flAverage fl t p i) := fun i hi => by
      rw [nu_coordinate_ok () _ (by omega) (by simpa using hi)]
      simp
    rw [hco 0 (by omega)] at e0
    rw [hco _ (by omega)] at e1
    obtain rfl := Res.ok.inj e0
    obtain rfl := Res.ok.inj e1
    have hX : Interlaced t p n (flAverage fl t p) := by
      refine greville_interlaced hfl hp hp' (fun i j hij _ => hm hij) (fun k hk' => (hcl k hk').1) (fun k hk' => (hcl k hk').2)
        (M := M) (fun k hk' => ?_) (fun c c1 c2 => ?_) (by omega) (by rwa [ea]) (by rwa [eb])
      · have k1 : t p ≤ t k := by
          rcases Nat.lt_or_ge k p with c | c
          · rw [(hcl k c.le).1]
          · exact hm c
        have k2 : t k ≤ t (p + n) := by
          rcases Nat.lt_or_ge (p + n) k with c | c
          · rw [show k = p + n + (k - (p + n)) by omega, (hcl _ (by omega)).2]
          · exact hm c
        exact abs_le.2 ⟨by linarith, by linarith⟩
      · have a1 := hk.inner (c - p) (by omega)
        have a2 := hk.inner (c - p + 1) (by omega)
        rw [show p + (c - p) = c by omega] at a1
        rw [show p + (c - p + 1) = c + 1 by omega] at a2
        rw [a1, a2]
        exact hb _ _
    obtain ⟨m, em, k1, k2, k3, -⟩ := h 0 _ (flAverage fl t p) (by omega) (fun k hk' => by rw [Nat.zero_add]; exact hco k hk') hX
    exact ⟨m, _, hco, em, k1, k2, k3⟩
  obtain ⟨s, es, hs'⟩ := hcore
  subst hn
  exact ⟨u, t, s, e, hk, es, hs'⟩

example : ∃ u s m, NUBS.mk' 3 false [0, 1, round53 (21 / 10), 4] = .ok u ∧ Rounded.grevilleOpen round53 u = .ok s ∧
    Rounded.assemble round53 (.nonUniform u) (seg () 0 6) s.coordinate = .ok (0, m) := by
  obtain ⟨u, t, s, e, hk, es, h⟩ := C70_greville_partial round53_all 3 (by norm_num) (by norm_num)
    [0, 1, round53 (21 / 10), 4] (by decide) (by decide) (by norm_num) (M := 4) (by norm_num) (by norm_num) (by norm_num)
    (fun i hi => by
      have hi' : i + 1 < 4 := hi
      obtain rfl | rfl | rfl : i = 0 ∨ i = 1 ∨ i = 2 := by omega
      · norm_num
      · have : (201 : Rat) / 100 ≤ round53 (21 / 10) := by decide +kernel
        norm_num
        linarith
      · have : round53 (21 / 10) ≤ (211 : Rat) / 100 := by decide +kernel
        norm_num
        linarith)
  have h0 : s.coordinate (el () 0) = .ok 0 := by
    have h2 : (NUBS.mk' 3 false [0, 1, round53 (21 / 10), 4] >>= fun u => Rounded.grevilleOpen round53 u >>= fun s =>
      s.coordinate (el () 0)) = .ok 0 := by decide +kernel
    rw [e, Res.ok_bind, es, Res.ok_bind] at h2
    exact h2
  have h1 : s.coordinate (el () 5) = .ok 4 := by
    have h2 : (NUBS.mk' 3 false [0, 1, round53 (21 / 10), 4] >>= fun u => Rounded.grevilleOpen round53 u >>= fun s =>
      s.coordinate (el () 5)) = .ok 4 := by decide +kernel
    rw [e, Res.ok_bind, es, Res.ok_bind] at h2
    exact h2
  obtain ⟨m, X, -, em, -⟩ := h 0 4 h0 h1 (by norm_num) (by norm_num)
  exact ⟨u, s, m, e, es, em⟩

/-! ## Uniform B-splines of degree one -/

/-- The interpolation points of uniform B-splines on a periodic domain (see C59). -/
def uniformPoints (fl : Rat → Rat) (k : Knots) : Elem Unit → Res Rat := fun e => do
  let i ← uid1 e
  .ok (k.grevillePoint fl i.toNat)

/-- With the rounding of IEEE 754, the builder of periodic splines of degree one on 20 cells of `[0, 1]` stops on the
assertion of `set_element`: the matrix is stored as a diagonal, whereas the computed values of the B-splines at their own
break points are not all zero or one. -/
theorem C70_degree_one_aborts :
    (let k := mkKnots round53 0 1 20 1
     Rounded.assemble round53 (.uniform k true) (seg () 0 20) (uniformPoints round53 k) >>= fun s => Res.ok s.1) =
      .abort := by
  decide +kernel

end DDC.Props
