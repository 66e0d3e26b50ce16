import Verif.Props.C41

/-!
# C41, continued: the construction, the shift of the periodic unknowns, and what goes wrong

* `C41_constructs`: the constructor succeeds when the grid is accepted, the matrix fits in its storage and
  the set-up of the linear problem succeeds.
* `C41_offset`: the shift.
* `C41_negative_offset`, `C41_symmetric_storage`, `C41_few_cells`: accepted problems for which the code
  fails.
-/

set_option linter.unusedSectionVars false

namespace DDC.Props

open One Dom LinProb Spec Builder

variable {K : Type} [Field K] [LinearOrder K] [IsStrictOrderedRing K] [FloorRing K]

variable {bs : BSpl K} {per : Bool} {p n : Nat} {t : Nat → K}

/-- The shift: with the cell `j` of the point number `p`, it is `j - s + r - p` where `s` is the index of
the first point and `r` is `p / 2`, or `p / 2 + 1` when `p` is odd and the B-spline `j + p / 2 + 1` is not
smaller at this point than the B-spline `j + p / 2`. -/
theorem C41_offset (h : bs.Is true p n t) {s N : Nat} {coord : Elem Unit → Res K} {X : Nat → K}
    (hX : PointsIn t p n s N coord X) (hN : p < N) {j : Nat} (hj : InCell t (t (p + n)) (X p) (j + p)) :
    computeOffset bs (seg () s (s + N)) coord = .ok ((j : Int) - s +
      (if p % 2 = 1 ∧ bspline t (t (p + n)) p (j + p / 2) (X p) ≤ bspline t (t (p + n)) p (j + p / 2 + 1) (X p)
        then p / 2 + 1 else p / 2 : Nat) - p) := by
  have hsm := h.small
  have hxs := hX.small
  obtain ⟨m, v, h1, h2, h3, h4⟩ := h.eval (X p) (hX.ge p hN) (hX.le p hN) (Arr.uninit (p + 1)) rfl
  obtain rfl : m = j := by have := h2.unique h.mono hj; omega
  rw [computeOffset, h.periodic, h.degree]
  simp only [if_true]
  rw [One.front, One.addInt_el, Res.ok_bind, hX.coord p hN, Res.ok_bind, h3, Res.ok_bind]
  dsimp only
  rw [el1_eq, NUBS.uid1_el, Res.ok_bind, NUBS.uid1_el, Res.ok_bind]
  have key : ∀ r : Nat, r ≤ p → UBS.sizeToInt (BitVec.ofNat 64 m - BitVec.ofNat 64 s + BitVec.ofNat 64 r -
      BitVec.ofNat 64 p) = (m : Int) - s + r - p := by
    intro r hr
    have e : BitVec.ofNat 64 m - BitVec.ofNat 64 s + BitVec.ofNat 64 r - BitVec.ofNat 64 p =
        BitVec.ofInt 64 ((m : Int) - s + r - p) := by
      rw [← BitVec.ofInt_natCast, ← BitVec.ofInt_natCast, ← BitVec.ofInt_natCast, ← BitVec.ofInt_natCast]
      simp only [Int.sub_eq_add_neg, BitVec.ofInt_add, BitVec.ofInt_neg, BitVec.sub_eq_add_neg]
    rw [e, sizeToInt_ofInt (by omega) (by omega)]
  split_ifs with c1 c2 c2
  · omega
  · rw [key _ (by omega)]
  · rw [Arr.rd_ok (by rw [h4.size]; omega) (h4.value _ (by omega)), Res.ok_bind,
      Arr.rd_ok (by rw [h4.size]; omega) (h4.value _ (by omega)), Res.ok_bind,
      if_neg (by rw [not_lt, ← Nat.add_assoc]; exact c2.2), key _ (by omega)]
  · have : p % 2 = 1 := by omega
    rw [Arr.rd_ok (by rw [h4.size]; omega) (h4.value _ (by omega)), Res.ok_bind,
      Arr.rd_ok (by rw [h4.size]; omega) (h4.value _ (by omega)), Res.ok_bind,
      if_pos (by rw [← Nat.add_assoc]; exact lt_of_not_ge fun hc => c2 ⟨this, hc⟩), key _ (by omega)]

/-- With one point in each cell and a mesh that starts at index `0`, the shift is in the range that the
rest of the code supports. -/
theorem C41_offset_regular (h : bs.Is true p n t) {N : Nat} {coord : Elem Unit → Res K} {X : Nat → K}
    (hX : PointsIn t p n 0 N coord X) (hN : p < N) (hj : InCell t (t (p + n)) (X p) (p + p)) :
    ∃ off, computeOffset bs (seg () 0 (0 + N)) coord = .ok off ∧ 0 ≤ off ∧ off ≤ p := by
  have hp := h.pos
  refine ⟨_, C41_offset h hX hN hj, ?_, ?_⟩ <;> split_ifs <;> omega

theorem writeAll_dense {k : U64} (ws : List (U64 × U64 × K)) {a : Mat K} {m' : LinProb K}
    (e : writeAll (.dense k a) ws = .ok m') : ∃ a', m' = .dense k a' := by
  induction ws generalizing a with
  | nil => exact ⟨a, (Res.ok.inj e).symm⟩
  | cons w ws ih =>
    obtain ⟨m1, e1, e⟩ := Res.bind_eq_ok.1 (show (LinProb.set (.dense k a) w.1 w.2.1 w.2.2 >>= fun m => writeAll m ws) = _
      by rw [← e, writeAll, List.foldlM_cons]; rfl)
    obtain ⟨a1, -, e1⟩ := Res.bind_eq_ok.1 e1
    obtain rfl := Res.ok.inj e1
    exact ih e

/-- The constructor is the set-up of the linear problem with the matrix of the conditions, when the grid is
accepted and the entries of the matrix that are not zero are stored. -/
theorem C41_constructs (h : bs.Is per p n t) (L : Lapack K) (σ : Sched)
    {lower upper : Closure} (hf : Fits per lower upper) {s N : Nat} {coord : Elem Unit → Res K} {X : Nat → K}
    (hX : PointsIn t p n s N coord X) (hgrid : checkValidGrid bs lower upper (seg () s (s + N)) coord = .ok ())
    {off : Int} (hcomp : computeOffset bs (seg () s (s + N)) coord = .ok off) (hoff : 0 ≤ off ∧ off ≤ p)
    (hper : per = true → p < n) {G : Nat → Nat → K} {nb : Nat} (hnb : nb = if per then n else n + p)
    (hN : edgeEquations lower p + N + edgeEquations upper p = nb)
    (hG : G = collocation (condition t p n (edgeEquations lower p) N X ((t (p + n) - t p) / n)) (n + p) nb off)
    {m : LinProb K} (hm : allocateMatrix bs (upper.blockSize bs.isUniform p (upper.equations p))
      (lower.blockSize bs.isUniform p (lower.equations p)) = .ok m) (hfr : Fresh m nb)
    (hst : ∀ i j, i < nb → j < nb → G i j ≠ 0 → m.Stored i j)
    (hsame : ∀ i j k l, i < nb → j < nb → k < nb → l < nb → m.Same (i, j) (k, l) → G i j = G k l) :
    ∃ m' : LinProb K, m'.Shaped ∧ m'.size = m.size ∧ (∀ i j, i < nb → j < nb → m'.shown i j = G i j) ∧
      (∃ ws, writeAll m ws = .ok m') ∧
      Builder.mk' L σ bs lower upper (seg () s (s + N)) coord = (m'.setup L σ >>= fun S =>
        .ok ⟨bs, lower, upper, seg () s (s + N), (t (p + n) - t p) / n, off, m', S⟩) := by
  have hsm := h.small
  have hoff0 : per = false → off = 0 := by
    intro hpe
    rw [computeOffset, h.periodic, hpe] at hcomp
    exact (Res.ok.inj hcomp).symm
  rw [← equations_eq] at hG hN
  rw [← equations_eq] at hN
  obtain ⟨m', e⟩ := buildMatrix_ok h hf hX hnb hN hoff.1 (by omega) hoff0 hper _ hG hfr hst
  obtain ⟨ws, hw, -⟩ := buildMatrix_writes h hf hX hnb hN hoff.1 (by omega) hoff0 hper _ hG
  obtain ⟨M1, M2, -, M4⟩ := buildMatrix_is h hf hX hnb hN hoff.1 (by omega) hoff0 hper _ hG hfr hsame
    (fun i j hi hj _ => or_iff_not_imp_left.2 fun hg => hst i j hi hj hg) e
  refine ⟨m', M1, M2, M4, ⟨ws, by rw [← hw, e]⟩, ?_⟩
  have en : (BitVec.ofNat 64 n).toNat = n := by rw [BitVec.toNat_ofNat]; omega
  have hfit : (per == decide (lower = .periodic) && per == decide (upper = .periodic)) = true := by
    rw [Fits] at hf
    cases per <;> simpa using hf
  rw [Builder.mk', h.periodic, hfit]
  dsimp only [Res.guardIll]
  rw [if_pos rfl, Res.ok_bind, h.rmax, Res.ok_bind, h.rmin, Res.ok_bind, h.ncells, Res.ok_bind, hgrid, Res.ok_bind,
    hcomp, Res.ok_bind, h.degree, hm, Res.ok_bind, en, e, Res.ok_bind]

/-- With a dense matrix the constructor succeeds exactly when the interpolation problem is well posed, and
throws otherwise. -/
theorem C41_constructs_dense (h : bs.Is per p n t) {L : Lapack K} (hL : L.Exact) (σ : Sched)
    {lower upper : Closure} (hf : Fits per lower upper) {s N : Nat} {coord : Elem Unit → Res K} {X : Nat → K}
    (hX : PointsIn t p n s N coord X) (hgrid : checkValidGrid bs lower upper (seg () s (s + N)) coord = .ok ())
    {off : Int} (hcomp : computeOffset bs (seg () s (s + N)) coord = .ok off) (hoff : 0 ≤ off ∧ off ≤ p)
    (hper : per = true → p < n) {G : Nat → Nat → K} {nb : Nat} (hnb : nb = if per then n else n + p)
    (hN : edgeEquations lower p + N + edgeEquations upper p = nb)
    (hG : G = collocation (condition t p n (edgeEquations lower p) N X ((t (p + n) - t p) / n)) (n + p) nb off)
    (hm : allocateMatrix bs (upper.blockSize bs.isUniform p (upper.equations p))
      (lower.blockSize bs.isUniform p (lower.equations p)) = .ok (mkDense (BitVec.ofNat 64 nb))) :
    (Regular nb G → ∃ B, Builder.mk' L σ bs lower upper (seg () s (s + N)) coord = .ok B ∧ B.offset = off ∧
      B.matrix.Clean) ∧
    (¬Regular nb G → Builder.mk' L σ bs lower upper (seg () s (s + N)) coord = .throw) := by
  have hsm := h.small
  have hnb' : nb < 2 ^ 64 := by split_ifs at hnb <;> omega
  have en : (BitVec.ofNat 64 nb).toNat = nb := by rw [BitVec.toNat_ofNat]; omega
  have hfr : Fresh (mkDense (K := K) (BitVec.ofNat 64 nb)) nb := by
    have := (C38_fresh (K := K) (BitVec.ofNat 64 nb) (by rw [en]; split_ifs at hnb <;> omega)).1
    rwa [en] at this
  obtain ⟨m', M1, M2, M3, ⟨ws, M4⟩, M5⟩ := C41_constructs h L σ hf hX hgrid hcomp hoff hper hnb hN hG hm hfr
    (fun _ _ _ _ _ => trivial) (fun i j k l _ _ _ _ e => by
      obtain ⟨rfl, rfl⟩ := Prod.mk.inj e; rfl)
  obtain ⟨a', rfl⟩ := writeAll_dense ws M4
  obtain ⟨S1, S2⟩ := C39_setup_direct hL σ _ M1
  rw [M2, show (mkDense (K := K) (BitVec.ofNat 64 nb)).size.toNat = nb from en, Regular.congr M3] at S1 S2
  refine ⟨fun hr => ?_, fun hr => ?_⟩
  · obtain ⟨S, e⟩ := S1 hr
    refine ⟨⟨bs, lower, upper, seg () s (s + N), (t (p + n) - t p) / n, off, .dense (BitVec.ofNat 64 nb) a', S⟩,
      by rw [M5, e, Res.ok_bind], rfl, trivial⟩
  · rw [M5, S2 hr]
    rfl

/-- A negative shift: `operator()` accesses memory out of bounds, for all data. -/
theorem C41_negative_offset {B : Builder K} (h : B.bs.Is true p n t) (hf : Fits true B.lower B.upper)
    {s : Nat} (hs' : s + n < 2 ^ 31) (hD : B.dom = seg () s (s + n)) (hneg : B.offset < 0) (L : Lapack K) (σ : Sched)
    (junk : Nat → Nat → K) {spline vals : Mat K} (hv : vals.rows = n) (hc : vals.cols = spline.cols)
    (h0 : spline.cols ≠ 0) : B.apply L σ junk spline vals none none = .ub := by
  have hsm := h.small
  have en : (BitVec.ofNat 64 n).toNat = n := by rw [BitVec.toNat_ofNat]; omega
  rw [Fits, if_pos rfl] at hf
  have e0 : ∀ q, Closure.periodic.equations q = 0 := fun q => rfl
  have e1 : ∀ c : Closure, c = .periodic → checkDerivs (K := K) c (p % 2) none = .ok () := by rintro c rfl; rfl
  have e2 : ∀ (c : Closure) k lo, c = .periodic → closureRows (K := K) σ c (p % 2) k B.dx lo none spline = .ok spline := by
    rintro c k lo rfl; rfl
  rw [apply, h.degree, hf.1, hf.2, e0, hD, seg_size (by omega), Res.ok_bind, Nat.add_sub_cancel_left, en,
    decide_eq_true hv, Res.guardAbort_true, Res.ok_bind, decide_eq_true hc, Res.guardAbort_true, Res.ok_bind,
    if_neg (by omega), h.nbasis, Res.ok_bind]
  simp only [if_true]
  rw [decide_eq_true (by simp), Res.guardAbort_true, Res.ok_bind, e1 _ rfl, Res.ok_bind, Res.ok_bind, e2 _ _ _ rfl,
    Res.ok_bind, fillRows, if_neg (by omega)]
  rfl

/-- The coordinates of points given by a list. -/
def listPoints (l : List Rat) (e : Elem Unit) : Res Rat := do
  let i ← uid1 e
  match l[i.toNat]? with
  | some x => .ok x
  | none => .ub

/-- A grid that is accepted, with a negative shift: cubic periodic B-splines on 5 cells, 4 points in the
first cell and one in the third.  (The interpolation problem has one solution: a spline that vanishes on the
first cell is a multiple of the B-spline supported by the other 4 cells.) -/
theorem C41_negative_offset_accepted : (do
    let u ← UBS.mk' 3 true (0 : Rat) 5 5
    let X := listPoints [0, 1 / 4, 1 / 2, 3 / 4, 5 / 2]
    checkValidGrid (.uniform u) .periodic .periodic (seg () 0 5) X
    computeOffset (.uniform u) (seg () 0 5) X) = .ok (-1) := by decide +kernel

/-- The mesh of the points starts at index `4`: the shift is negative although the points are the usual
ones. -/
theorem C41_negative_offset_front : (do
    let u ← UBS.mk' 3 true (0 : Rat) 5 5
    let X := listPoints [0, 0, 0, 0, 0, 1, 2, 3, 4]
    checkValidGrid (.uniform u) .periodic .periodic (seg () 4 9) X
    computeOffset (.uniform u) (seg () 4 9) X) = .ok (-3) := by decide +kernel

/-- Uniform B-splines of degree 2 in a periodic dimension with 6 cells, points that are not uniform: the code
stores the main block as a symmetric matrix although it is not symmetric, and the entry of row 1 and column
2 is the value of B-spline 3 at point 1 in the interpolation problem but the value of B-spline 2 at point 2
in the matrix. -/
theorem C41_symmetric_storage : (do
    let u ← UBS.mk' 2 true (0 : Rat) 6 6
    let X := listPoints [1 / 2, 7 / 4, 5 / 2, 7 / 2, 9 / 2, 11 / 2]
    checkValidGrid (.uniform u) .periodic .periodic (seg () 0 6) X
    let off ← computeOffset (.uniform u) (seg () 0 6) X
    let m ← allocateMatrix (.uniform u) 1 1
    let m ← buildMatrix (.uniform u) .periodic .periodic (seg () 0 6) X 1 off m
    m.get 1 2) = .ok (1 / 8) ∧
    Spec.collocation (Spec.condition (Spec.uniformKnot (0 : Rat) 6 6 2) 2 6 0 6
      (fun k => [1 / 2, 7 / 4, 5 / 2, 7 / 2, 9 / 2, 11 / 2].getD k 0) 1) 8 6 1 1 2 = 9 / 32 := by
  constructor <;> decide +kernel

/-- As many cells as the degree in a periodic dimension: two B-splines have the same column, and the second
value overwrites the first.  Degree 2 and 2 cells: the entry of the matrix is `1 / 8`, the sum of the values of
the B-splines 0 and 2 at point 0 is `1 / 4`. -/
theorem C41_few_cells : (do
    let u ← UBS.mk' 2 true (0 : Rat) 2 2
    let X := listPoints [1 / 2, 3 / 2]
    checkValidGrid (.uniform u) .periodic .periodic (seg () 0 2) X
    let m ← allocateMatrix (.uniform u) 1 1
    let m ← buildMatrix (.uniform u) .periodic .periodic (seg () 0 2) X 1 1 m
    m.get 0 1) = .ok (1 / 8) ∧
    Spec.collocation (Spec.condition (Spec.uniformKnot (0 : Rat) 2 2 2) 2 2 0 2
      (fun k => [1 / 2, 3 / 2].getD k 0) 1) 4 2 1 0 1 = 1 / 4 := by
  constructor <;> decide +kernel

/-! ## A case that meets the hypotheses: quadratic periodic B-splines on 3 cells, points in the middle of the
cells -/

/-- The matrix: `3/4` on the diagonal, `1/8` elsewhere. -/
theorem example_matrix : ∀ i < 3, ∀ j < 3, collocation (condition (uniformKnot (0 : Rat) 3 3 2) 2 3 0 3
    (fun k => [1 / 2, 3 / 2, 5 / 2].getD k 0) ((uniformKnot (0 : Rat) 3 3 2 (2 + 3) - uniformKnot (0 : Rat) 3 3 2 2) /
      (3 : Nat))) (3 + 2) 3 1 i j = if i = j then 3 / 4 else 1 / 8 := by
  decide +kernel

theorem example_points : PointsIn (uniformKnot (0 : Rat) 3 3 2) 2 3 0 3 (listPoints [1 / 2, 3 / 2, 5 / 2])
    (fun k => [1 / 2, 3 / 2, 5 / 2].getD k 0) :=
  ⟨by norm_num, fun k hk => by interval_cases k <;> decide +kernel, fun k hk => by interval_cases k <;> decide +kernel,
    fun k hk => by interval_cases k <;> decide +kernel⟩

/-- The matrix of the example has no small entries. -/
theorem example_small : ∀ i j, i < 3 → j < 3 → |collocation (condition (uniformKnot (0 : Rat) 3 3 2) 2 3 0 3
    (fun k => [1 / 2, 3 / 2, 5 / 2].getD k 0) ((uniformKnot (0 : Rat) 3 3 2 (2 + 3) - uniformKnot (0 : Rat) 3 3 2 2) /
      (3 : Nat))) (3 + 2) 3 1 i j| < 1 / 10 ^ 15 → collocation (condition (uniformKnot (0 : Rat) 3 3 2) 2 3 0 3
    (fun k => [1 / 2, 3 / 2, 5 / 2].getD k 0) ((uniformKnot (0 : Rat) 3 3 2 (2 + 3) - uniformKnot (0 : Rat) 3 3 2 2) /
      (3 : Nat))) (3 + 2) 3 1 i j = 0 := by
  intro i j hi hj
  rw [example_matrix i hi j hj]
  split_ifs <;> intro h <;> norm_num [abs_of_pos] at h

/-- The builder of the example. -/
theorem example_builder {L : Lapack Rat} (hL : L.Exact) (σ : Sched) :
    ∃ u B, UBS.mk' 2 true (0 : Rat) 3 3 = .ok u ∧ (BSpl.uniform u).Is true 2 3 (uniformKnot (0 : Rat) 3 3 2) ∧
    Builder.mk' L σ (.uniform u) .periodic .periodic (seg () 0 3) (listPoints [1 / 2, 3 / 2, 5 / 2]) = .ok B ∧
    B.offset = 1 ∧ B.matrix.Clean := by
  obtain ⟨u, eu, hu⟩ := BSpl.is_uniform (p := 2) (by norm_num) true (a := (0 : Rat)) (b := 3) (by norm_num) (n := 3)
    (by norm_num) (by norm_num)
  have hgo : (UBS.mk' 2 true (0 : Rat) 3 (BitVec.ofNat 64 3) >>= fun u =>
      checkValidGrid (.uniform u) .periodic .periodic (seg () 0 3) (listPoints [1 / 2, 3 / 2, 5 / 2])) = .ok () := by
    decide +kernel
  have hof : (UBS.mk' 2 true (0 : Rat) 3 (BitVec.ofNat 64 3) >>= fun u =>
      computeOffset (.uniform u) (seg () 0 3) (listPoints [1 / 2, 3 / 2, 5 / 2])) = .ok 1 := by
    decide +kernel
  rw [eu, Res.ok_bind] at hgo hof
  have hm : allocateMatrix (.uniform u) 1 1 = .ok (mkDense (BitVec.ofNat 64 3)) := by
    rw [allocateMatrix, hu.degree, hu.nbasis, hu.periodic]
    rfl
  obtain ⟨B, eB, ho, hcl⟩ := (C41_constructs_dense hu hL σ (lower := .periodic) (upper := .periodic) (by simp [Fits])
    example_points hgo hof (by norm_num) (by norm_num) (nb := 3) rfl rfl rfl hm).1 (by
      refine (Regular.congr fun i j hi hj => example_matrix i hi j hj).2 fun x hx j hj => ?_
      have h0 := hx 0 (by norm_num)
      have h1 := hx 1 (by norm_num)
      have h2 := hx 2 (by norm_num)
      simp only [Finset.sum_range_succ, Finset.sum_range_zero] at h0 h1 h2
      norm_num at h0 h1 h2
      interval_cases j <;> linarith)
  exact ⟨u, B, eu, hu, eB, ho, hcl⟩

/-- All the hypotheses of `C41_interpolates_partial` hold for this case, and any data is interpolated. -/
example {L : Lapack Rat} (hL : L.Exact) {σ : Sched} (hσ : σ.Valid) : ∃ u B, UBS.mk' 2 true (0 : Rat) 3 3 = .ok u ∧
    Builder.mk' L σ (.uniform u) .periodic .periodic (seg () 0 3) (listPoints [1 / 2, 3 / 2, 5 / 2]) = .ok B ∧
    ∀ y : Nat → Nat → Rat, ∃ c, B.apply L σ (fun _ _ => 0) ⟨5, 10, fun _ _ => 0⟩ ⟨3, 10, y⟩ none none = .ok c ∧
      ∀ j < 10, ∀ k < 3, splineValue (uniformKnot (0 : Rat) 3 3 2) 2 3 (fun J => c.val J j)
        ([1 / 2, 3 / 2, 5 / 2].getD k 0) = y k j := by
  obtain ⟨u, B, eu, hu, eB, ho, hcl⟩ := example_builder hL σ
  refine ⟨u, B, eu, eB, fun y => ?_⟩
  obtain ⟨c, e, -, -, hc⟩ := C41_interpolates_partial hu hL hσ example_points eB (by rw [ho]; norm_num) (by norm_num)
    (nb := 3) rfl (by rw [ho]; rfl) hcl example_small (fun _ i j hi hj _ => by
      rw [example_matrix i hi j hj, example_matrix j hj i hi]
      simp only [eq_comm]) hσ (fun _ _ => 0) ⟨5, 10, fun _ _ => 0⟩ ⟨3, 10, y⟩ none none rfl rfl rfl (by simp [GivenDerivs])
      (by simp [GivenDerivs])
  exact ⟨c, e, fun j hj k hk => (hc j hj).1.value k hk⟩

end DDC.Props
