import Verif.Lemmas.BuildMatrix
import Mathlib.Tactic.Positivity

/-!
# The rows of the matrix of the builder
-/

namespace DDC.Props

open One Dom LinProb Spec

set_option linter.unusedSectionVars false

variable {K : Type} [Field K] [LinearOrder K] [IsStrictOrderedRing K]

/-- The loop that multiplies the derivative of order `k` by `dx ^ k`. -/
theorem scaleDerivs_ok {p N : Nat} (hN : p / 2 = N) (dx : K) {d : Arr2 K} (hr : d.rows = p + 1)
    (hc : d.cols = N + 1) (f : Nat → Nat → K) (hv : ∀ r k : Nat, r ≤ p → k ≤ N → d.val r k = some (f r k)) :
    ∃ d', scaleDerivs p dx d = .ok d' ∧ d'.rows = p + 1 ∧ d'.cols = N + 1 ∧
      ∀ r k : Nat, r ≤ p → k ≤ N → d'.val r k = some (dx ^ k * f r k) := by
  obtain ⟨d', e, h1, h2, h3⟩ := forLoop_inv
    (f := fun i d => forLoop (fun j d => do
      let v ← d.rd i j
      d.wr i j (v * ipow dx j)) 1 (p / 2) d)
    (fun i (d : Arr2 K) => d.rows = p + 1 ∧ d.cols = N + 1 ∧ ∀ r k : Nat, r ≤ p → k ≤ N →
      d.val r k = some (if r < i then dx ^ k * f r k else f r k)) (p + 1) 0 d
    ⟨hr, hc, fun r k h1 h2 => by rw [if_neg (by omega), hv r k h1 h2]⟩ (by
      rintro i d - hi ⟨h1, h2, h3⟩
      obtain ⟨d', e, g1, g2, g3⟩ := forLoop_inv
        (f := fun j (d : Arr2 K) => do
          let v ← d.rd i j
          d.wr i j (v * ipow dx j))
        (fun j (d : Arr2 K) => d.rows = p + 1 ∧ d.cols = N + 1 ∧ ∀ r k : Nat, r ≤ p → k ≤ N →
          d.val r k = some (if r < i ∨ (r = i ∧ k < j) then dx ^ k * f r k else f r k)) (p / 2) 1 d
        ⟨h1, h2, fun r k hr hk => by
          rw [h3 r k hr hk]
          congr 1
          by_cases c1 : r < i
          · rw [if_pos c1, if_pos (Or.inl c1)]
          · rw [if_neg c1]
            split_ifs with c2
            · obtain rfl : k = 0 := by omega
              rw [pow_zero, one_mul]
            · rfl⟩ (by
          rintro j d hj1 hj2 ⟨h1, h2, h3⟩
          have hb : (0 : Int) ≤ i ∧ (i : Int) < d.rows ∧ (0 : Int) ≤ j ∧ (j : Int) < d.cols := by omega
          have e := h3 i j (by omega) (by omega)
          rw [if_neg (by omega)] at e
          have e' : (do
              let v ← d.rd i j
              d.wr i j (v * ipow dx j)) = Res.ok (d.set i j (f i j * ipow dx j)) := by
            rw [Arr2.rd_ok hb e, Res.ok_bind, Arr2.wr_ok hb]
          refine ⟨_, e', h1, h2, fun r k hr hk => ?_⟩
          rw [Arr2.set_val]
          by_cases c : (r : Int) = i ∧ (k : Int) = j
          · obtain ⟨rfl, rfl⟩ : r = i ∧ k = j := by omega
            rw [if_pos c, if_pos (by omega), ipow_eq, mul_comm]
          · rw [if_neg c, h3 r k hr hk]
            congr 1
            by_cases c2 : r < i ∨ (r = i ∧ k < j)
            · rw [if_pos c2, if_pos (by omega)]
            · rw [if_neg c2, if_neg (by omega)])
      refine ⟨d', e, g1, g2, fun r k hr hk => ?_⟩
      rw [g3 r k hr hk]
      congr 1
      by_cases c : r < i + 1
      · rw [if_pos (by omega), if_pos c]
      · rw [if_neg (by omega), if_neg c])
  refine ⟨d', e, h1, h2, fun r k hr hk => ?_⟩
  rw [h3 r k hr hk, if_pos (by omega)]

variable [FloorRing K]

variable {bs : BSpl K} {per : Bool} {p n : Nat} {t : Nat → K}

/-- The loop over the rows of the lower closure. -/
theorem setLowerRows_eq (h : bs.Is per p n t) (dx : K) (N : Nat) (X : Nat → K) (m : LinProb K) :
    setLowerRows bs (p / 2) dx m = writeAll m ((List.range' 0 (p / 2)).flatMap fun i =>
      (List.range' 0 p).flatMap fun j =>
        [(BitVec.ofNat 64 i, BitVec.ofNat 64 j, condition t p n (p / 2) N X dx i j)]) := by
  have hp := h.pos
  obtain ⟨-, d, e1, h1, h2, h3⟩ := h.nderivs_piece h.cell_first (le_refl _) h.ends.le (le_refl (p / 2))
    (Arr2.uninit (p + 1) (p / 2 + 1)) rfl rfl
  obtain ⟨d', e2, g1, g2, g3⟩ := scaleDerivs_ok rfl dx h1 h2 _ h3
  rw [setLowerRows, h.degree, h.rmin]
  dsimp only
  rw [Res.ok_bind, e1, Res.ok_bind]
  dsimp only
  rw [e2, Res.ok_bind]
  refine forLoop_writes _ _ (fun i _ hi m => forLoop_writes _ _ (fun j _ hj m => ?_) m) m
  rw [Arr2.rd_ok (by omega) (g3 j (i + p % 2) (by omega) (by omega)), Res.ok_bind, writeAll_one]
  simp only [condition, basisDeriv]
  rw [if_pos (by omega), Nat.sub_self, Nat.zero_add]

/-- The loop over the rows of the upper closure. -/
theorem setUpperRows_eq (h : bs.Is false p n t) (dx : K) (lo N : Nat) (X : Nat → K)
    (hN : lo + N + p / 2 = n + p) (m : LinProb K) :
    setUpperRows bs (p / 2) dx m = writeAll m ((List.range' 0 p).flatMap fun j =>
      (List.range' 0 (p / 2)).flatMap fun i =>
        [(BitVec.ofNat 64 (lo + N + i), BitVec.ofNat 64 (n + j),
          condition t p n lo N X dx (lo + N + i) (n + j))]) := by
  have hp := h.pos
  have hn := h.cells
  have hs := h.small
  obtain ⟨-, d, e1, h1, h2, h3⟩ := h.nderivs_piece h.cell_last h.ends.le (le_refl _) (le_refl (p / 2))
    (Arr2.uninit (p + 1) (p / 2 + 1)) rfl rfl
  obtain ⟨d', e2, g1, g2, g3⟩ := scaleDerivs_ok rfl dx h1 h2 _ h3
  rw [setUpperRows, h.degree, h.rmax]
  dsimp only
  rw [Res.ok_bind, e1, Res.ok_bind]
  dsimp only
  rw [e2, Res.ok_bind, h.nbasis, Res.ok_bind, if_neg (by simp), ofNat_sub (by omega),
    ofNat_sub (by omega), sizeToInt_ofNat (by omega), sizeToInt_ofNat (by omega)]
  refine forLoop_writes _ _ (fun j _ hj m => forLoop_writes _ _ (fun i _ hi m => ?_) m) m
  rw [Arr2.rd_ok (by omega) (g3 (j + 1) (i + p % 2) (by omega) (by omega)), Res.ok_bind, writeAll_one]
  simp only [condition, basisDeriv]
  rw [if_neg (by omega), if_neg (by omega), show lo + N + i - (lo + N) = i by omega,
    show p + n - 1 - p + (j + 1) = n + j by omega, BitVec.ofInt_natCast, BitVec.ofInt_natCast,
    ← BitVec.ofNat_add, ← BitVec.ofNat_add, show n + p - p / 2 + i = lo + N + i by omega,
    show n + p - p + j = n + j by omega]

/-- The row of a point: it depends on the cell `m` in which the point is. -/
theorem pointRow_eq (h : bs.Is per p n t) {nb : Nat} (hnb : bs.nbasis = .ok (BitVec.ofNat 64 nb)) (hnb0 : 0 < nb)
    (hnb1 : nb < 2 ^ 31) {off : Int} (h0 : 0 ≤ off) (h1 : off < 2 ^ 31) (lo N : Nat) (X : Nat → K) (dx : K)
    {coord : Elem Unit → Res K} {s k : Nat} (hk : k < N) (hs : s < 2 ^ 31)
    (hc : coord (el () (s + k)) = .ok (X k)) {m : Nat} (hm : m < n) (hX : InCell t (t (p + n)) (X k) (m + p))
    (hX1 : t p ≤ X k) (hX2 : X k ≤ t (p + n)) (a : Arr K) (ha : a.size = p + 1) (M : LinProb K) :
    ∃ b : Arr K, b.size = p + 1 ∧ pointRow bs lo coord off s (el () (s + k)) (a, M) =
      (writeAll M ((List.range' 0 (p + 1)).flatMap fun r =>
        [(BitVec.ofNat 64 (lo + k), BitVec.ofInt 64 ((((m + r : Nat) : Int) - off) % (nb : Int)),
          condition t p n lo N X dx (lo + k) (m + r))]) >>= fun M => .ok (b, M)) := by
  have hsm := h.small
  obtain ⟨m', v, g1, g2, g3, g4⟩ := h.eval (X k) hX1 hX2 a ha
  obtain rfl : m = m' := by
    have := hX.unique h.mono g2
    omega
  refine ⟨v, g4.size, ?_⟩
  rw [pointRow, h.degree, hc, Res.ok_bind]
  dsimp only
  rw [g3, Res.ok_bind]
  dsimp only
  rw [NUBS.uid1_el, Res.ok_bind]
  congr 1
  refine forLoop_writes _ _ (fun r _ hr M => ?_) M
  rw [el1_eq, NUBS.uid1_el, Res.ok_bind, hnb, Res.ok_bind, column_eq h0 h1 (by omega) hnb0 hnb1, Res.ok_bind,
    Arr.rd_ok (by rw [g4.size]; omega) (g4.value r (by omega)), Res.ok_bind, writeAll_one]
  simp only [condition]
  rw [if_neg (by omega), if_pos (by omega), show lo + k - lo = k by omega, BitVec.ofInt_natCast]
  congr 1
  rw [BitVec.ofNat_add, BitVec.ofNat_add]
  grind

/-- All the writes. -/
noncomputable def allWrites (R : Nat → Nat → K) (p n lo N up nb : Nat) (off : Int) (cell : Nat → Nat) :
    List (U64 × U64 × K) :=
  ((List.range' 0 lo).flatMap fun i => (List.range' 0 p).flatMap fun j =>
      [(BitVec.ofNat 64 i, BitVec.ofNat 64 j, R i j)]) ++
  (((List.range' 0 N).flatMap fun k => (List.range' 0 (p + 1)).flatMap fun r =>
      [(BitVec.ofNat 64 (lo + k), BitVec.ofInt 64 ((((cell k + r : Nat) : Int) - off) % (nb : Int)),
        R (lo + k) (cell k + r))]) ++
  ((List.range' 0 p).flatMap fun j => (List.range' 0 up).flatMap fun i =>
      [(BitVec.ofNat 64 (lo + N + i), BitVec.ofNat 64 (n + j), R (lo + N + i) (n + j))]))

/-- The points of the interpolation mesh `dom`: they are in the range of the B-splines. -/
structure PointsIn (t : Nat → K) (p n s N : Nat) (coord : Elem Unit → Res K) (X : Nat → K) : Prop where
  small : s + N < 2 ^ 31
  coord : ∀ k, k < N → coord (el () (s + k)) = .ok (X k)
  ge : ∀ k, k < N → t p ≤ X k
  le : ∀ k, k < N → X k ≤ t (p + n)

theorem buildMatrix_eq (h : bs.Is per p n t) {lower upper : Closure} (hf : Fits per lower upper) {s N : Nat}
    {coord : Elem Unit → Res K} {X : Nat → K} (hX : PointsIn t p n s N coord X) {nb : Nat}
    (hnb : nb = if per then n else n + p) (hN : lower.equations p + N + upper.equations p = nb) {off : Int}
    (h0 : 0 ≤ off) (h1 : off < 2 ^ 31) (dx : K) {cell : Nat → Nat}
    (hcell : ∀ k, k < N → cell k < n ∧ InCell t (t (p + n)) (X k) (cell k + p)) (m : LinProb K) :
    buildMatrix bs lower upper (seg () s (s + N)) coord dx off m =
      writeAll m (allWrites (condition t p n (lower.equations p) N X dx) p n (lower.equations p) N
        (upper.equations p) nb off cell) := by
  have hs := h.small
  have hn := h.cells
  have hx := hX.small
  have e1 : (if lower.isHermite then setLowerRows bs (lower.equations p) dx m else Res.ok m) =
      writeAll m ((List.range' 0 (lower.equations p)).flatMap fun i => (List.range' 0 p).flatMap fun j =>
        [(BitVec.ofNat 64 i, BitVec.ofNat 64 j, condition t p n (lower.equations p) N X dx i j)]) := by
    cases lower <;> first | rfl | exact setLowerRows_eq h dx N X m
  have e3 : ∀ m, (if upper.isHermite then setUpperRows bs (upper.equations p) dx m else Res.ok m) =
      writeAll m ((List.range' 0 p).flatMap fun j => (List.range' 0 (upper.equations p)).flatMap fun i =>
        [(BitVec.ofNat 64 (lower.equations p + N + i), BitVec.ofNat 64 (n + j),
          condition t p n (lower.equations p) N X dx (lower.equations p + N + i) (n + j))]) := by
    intro m
    have hflat : ∀ l : List Nat, (l.flatMap fun _ => ([] : List (U64 × U64 × K))) = [] := by
      intro l; simp
    by_cases hu : upper.isHermite
    · have hper : per = false := by
        cases per
        · rfl
        · rw [Fits, if_pos rfl] at hf; rw [hf.2] at hu; cases hu
      subst hper
      have hq : upper.equations p = p / 2 := by
        cases upper <;> first | rfl | cases hu
      rw [if_pos hu, hq]
      exact setUpperRows_eq h dx _ N X (by rw [hq] at hN; simpa [hnb] using hN) m
    · have hq : upper.equations p = 0 := by
        cases upper <;> first | rfl | exact absurd rfl hu
      rw [if_neg hu, hq]
      show _ = writeAll m ((List.range' 0 p).flatMap fun _ => [])
      rw [hflat]
      rfl
  have e2 : ∀ m, (hostForEach1 (seg () s (s + N)) (pointRow bs (lower.equations p) coord off s)
      (Arr.uninit (p + 1), m) >>= fun q => Res.ok q.2) =
      writeAll m ((List.range' 0 N).flatMap fun k => (List.range' 0 (p + 1)).flatMap fun r =>
      [(BitVec.ofNat 64 (lower.equations p + k), BitVec.ofInt 64 ((((cell k + r : Nat) : Int) - off) % (nb : Int)),
        condition t p n (lower.equations p) N X dx (lower.equations p + k) (cell k + r))]) := by
    intro m
    rw [hostForEach1_seg (by omega) (by omega), Nat.add_sub_cancel_left]
    exact forLoop_writes₂ (fun a => a.size = p + 1) _ _ (fun k _ hk a m ha =>
      pointRow_eq h (by rw [h.nbasis, hnb]) (by split_ifs at hnb <;> omega) (by split_ifs at hnb <;> omega) h0 h1
        _ N X dx (by omega) (by omega) (hX.coord k (by omega)) (hcell k (by omega)).1 (hcell k (by omega)).2
        (hX.ge k (by omega)) (hX.le k (by omega)) a ha m) _ rfl m
  have e0 : buildMatrix bs lower upper (seg () s (s + N)) coord dx off m =
      ((if lower.isHermite then setLowerRows bs (lower.equations p) dx m else Res.ok m) >>= fun m => do
        let start ← uid1 (Dom.front (seg () s (s + N)))
        let s ← hostForEach1 (seg () s (s + N)) (pointRow bs (lower.equations p) coord off (UBS.sizeToInt start))
          (Arr.uninit (p + 1), m)
        if upper.isHermite then setUpperRows bs (upper.equations p) dx s.2 else .ok s.2) := by
    rw [buildMatrix, h.degree]
    dsimp only
    split_ifs <;> rfl
  rw [e0, e1, allWrites, writeAll_append]
  congr 1
  funext m1
  rw [writeAll_append, ← e2, bind_assoc, One.front, NUBS.uid1_el, Res.ok_bind, sizeToInt_ofNat (by omega)]
  congr 1
  funext q
  rw [Res.ok_bind, e3]

/-! ## The matrix -/

theorem collocation_zero {R : Nat → Nat → K} {size nb : Nat} {off : Int} {i j : Nat}
    (h : collocation R size nb off i j ≠ 0) :
    ∃ J, J < size ∧ ((J : Int) - off) % (nb : Int) = j ∧ R i J ≠ 0 := by
  by_contra hc
  refine h (Finset.sum_eq_zero fun J hJ => ?_)
  split_ifs with c
  · by_contra hr
    exact hc ⟨J, Finset.mem_range.1 hJ, c, hr⟩
  · rfl

/-- When the support of a row has less than `nb` columns, the columns are distinct. -/
theorem collocation_one {R : Nat → Nat → K} {size nb : Nat} {off : Int} {i m p : Nat} (hp : p < nb)
    (hR : ∀ J, J < m ∨ m + p < J → R i J = 0) {J : Nat} (hJ : J < size) (h1 : m ≤ J) (h2 : J ≤ m + p) {j : Nat}
    (hj : ((J : Int) - off) % (nb : Int) = j) : collocation R size nb off i j = R i J := by
  rw [collocation, Finset.sum_eq_single J]
  · rw [if_pos hj]
  · intro J' hJ' hne
    by_cases hs : J' < m ∨ m + p < J'
    · rw [hR J' hs]; simp
    · rw [if_neg]
      intro hc
      rw [← hj] at hc
      have : ((J' : Int) - J) % (nb : Int) = 0 := by
        have := Int.emod_eq_emod_iff_emod_sub_eq_zero.1 hc
        rw [show (J' : Int) - off - (J - off) = J' - J by ring] at this
        exact this
      obtain ⟨c, hc⟩ := Int.dvd_of_emod_eq_zero this
      have h3 : -(nb : Int) < (J' : Int) - J := by omega
      have h4 : (J' : Int) - J < (nb : Int) := by omega
      have : c = 0 := by
        rw [hc] at h3 h4
        have a1 : -1 < c := by nlinarith
        have a2 : c < 1 := by nlinarith
        omega
      rw [this] at hc
      apply hne
      omega
  · intro hc
    exact absurd (Finset.mem_range.2 hJ) hc

theorem mem_allWrites {R : Nat → Nat → K} {p n lo N up nb : Nat} {off : Int} {cell : Nat → Nat}
    {w : U64 × U64 × K} : w ∈ allWrites R p n lo N up nb off cell ↔
      (∃ i j, i < lo ∧ j < p ∧ w = (BitVec.ofNat 64 i, BitVec.ofNat 64 j, R i j)) ∨
      (∃ k r, k < N ∧ r ≤ p ∧ w = (BitVec.ofNat 64 (lo + k),
        BitVec.ofInt 64 ((((cell k + r : Nat) : Int) - off) % (nb : Int)), R (lo + k) (cell k + r))) ∨
      ∃ i j, i < up ∧ j < p ∧ w = (BitVec.ofNat 64 (lo + N + i), BitVec.ofNat 64 (n + j),
        R (lo + N + i) (n + j)) := by
  simp only [allWrites, List.mem_append, List.mem_flatMap, List.mem_range'_1, List.mem_singleton, Nat.zero_le,
    true_and, Nat.zero_add]
  constructor
  · rintro (⟨i, hi, j, hj, e⟩ | ⟨k, hk, r, hr, e⟩ | ⟨j, hj, i, hi, e⟩)
    · exact .inl ⟨i, j, hi, hj, e⟩
    · exact .inr (.inl ⟨k, r, hk, by omega, e⟩)
    · exact .inr (.inr ⟨i, j, hi, hj, e⟩)
  · rintro (⟨i, j, hi, hj, e⟩ | ⟨k, r, hk, hr, e⟩ | ⟨i, j, hi, hj, e⟩)
    · exact .inl ⟨i, hi, j, hj, e⟩
    · exact .inr (.inl ⟨k, hk, r, by omega, e⟩)
    · exact .inr (.inr ⟨j, hj, i, hi, e⟩)

/-- Which B-splines occur in the conditions. -/
theorem condition_support (h : bs.Is per p n t) {lo N up : Nat} (hlo : lo ≤ p / 2) (hup : up ≤ p / 2)
    {X : Nat → K} (dx : K) {cell : Nat → Nat}
    (hcell : ∀ k, k < N → cell k < n ∧ InCell t (t (p + n)) (X k) (cell k + p)) :
    (∀ i J, i < lo → p ≤ J → condition t p n lo N X dx i J = 0) ∧
    (∀ k J, k < N → (J < cell k ∨ cell k + p < J) → condition t p n lo N X dx (lo + k) J = 0) ∧
    ∀ i J, i < up → (J < n ∨ n + p ≤ J) → condition t p n lo N X dx (lo + N + i) J = 0 := by
  have hp := h.pos
  have hn := h.cells
  refine ⟨fun i J hi hJ => ?_, fun k J hk hJ => ?_, fun i J hi hJ => ?_⟩
  · rw [condition, if_pos hi, basisDeriv]
    by_cases c : J = p
    · subst c
      obtain ⟨a, e⟩ := piece_start t J J
      rw [e, deriv_pow_zero a _ (by omega), mul_zero]
    · rw [piece_zero t p p J (by omega)]
      simp
  · rw [condition, if_neg (by omega), if_pos (by omega), show lo + k - lo = k by omega]
    have hc := (hcell k hk).2
    rw [bspline_eq_piece h.mono hc, piece_zero _ _ _ _ (by omega)]
    simp
  · rw [condition, if_neg (by omega), if_neg (by omega), basisDeriv]
    by_cases c : J + p = p + n - 1
    · obtain ⟨a, e⟩ := piece_stop t p J
      rw [← c, e, show J + p + 1 = p + n by omega, deriv_pow_zero a _ (by omega), mul_zero]
    · rw [piece_zero t (p + n - 1) p J (by omega)]
      simp

theorem PointsIn.cells (h : bs.Is per p n t) {s N : Nat} {coord : Elem Unit → Res K} {X : Nat → K}
    (hX : PointsIn t p n s N coord X) :
    ∃ cell : Nat → Nat, ∀ k, k < N → cell k < n ∧ InCell t (t (p + n)) (X k) (cell k + p) := by
  have hex : ∀ k, ∃ c, k < N → c < n ∧ InCell t (t (p + n)) (X k) (c + p) := by
    intro k
    by_cases hk : k < N
    · obtain ⟨c, v, a1, a2, -⟩ := h.eval (X k) (hX.ge k hk) (hX.le k hk) (Arr.uninit (p + 1)) rfl
      exact ⟨c, fun _ => ⟨a1, a2⟩⟩
    · exact ⟨0, fun h => absurd h hk⟩
  choose cell hcell using hex
  exact ⟨cell, hcell⟩

theorem buildMatrix_same (h : bs.Is per p n t) {lower upper : Closure} (hf : Fits per lower upper) {s N : Nat}
    {coord : Elem Unit → Res K} {X : Nat → K} (hX : PointsIn t p n s N coord X) {nb : Nat}
    (hnb : nb = if per then n else n + p) (hN : lower.equations p + N + upper.equations p = nb) {off : Int}
    (h0 : 0 ≤ off) (h1 : off < 2 ^ 31) (dx : K) {m m' : LinProb K} (hm : Fresh m nb)
    (e : buildMatrix bs lower upper (seg () s (s + N)) coord dx off m = .ok m') : m'.Same = m.Same := by
  obtain ⟨cell, hcell⟩ := hX.cells h
  rw [buildMatrix_eq h hf hX hnb hN h0 h1 dx hcell] at e
  exact (writeAll_legal hm.shaped e).2.2.2

/-- The writes are those of the entries of the matrix of the conditions. -/
theorem buildMatrix_writes (h : bs.Is per p n t) {lower upper : Closure} (hf : Fits per lower upper) {s N : Nat}
    {coord : Elem Unit → Res K} {X : Nat → K} (hX : PointsIn t p n s N coord X) {nb : Nat}
    (hnb : nb = if per then n else n + p) (hN : lower.equations p + N + upper.equations p = nb) {off : Int}
    (h0 : 0 ≤ off) (h1 : off < 2 ^ 31) (hoff : per = false → off = 0) (hper : per = true → p < n) (dx : K)
    {G : Nat → Nat → K} (hG : G = collocation (condition t p n (lower.equations p) N X dx) (n + p) nb off) :
    ∃ ws : List (U64 × U64 × K),
      (∀ m, buildMatrix bs lower upper (seg () s (s + N)) coord dx off m = writeAll m ws) ∧
      (∀ w ∈ ws, w.2.2 = G w.1.toNat w.2.1.toNat ∧ w.1.toNat < nb ∧ w.2.1.toNat < nb) ∧
      ∀ i j, i < nb → j < nb → G i j ≠ 0 → ∃ w ∈ ws, w.1.toNat = i ∧ w.2.1.toNat = j := by
  classical
  have hp := h.pos
  have hn := h.cells
  have hsm := h.small
  have hlo : lower.equations p ≤ p / 2 := by rw [Closure.equations]; split_ifs <;> omega
  have hup : upper.equations p ≤ p / 2 := by rw [Closure.equations]; split_ifs <;> omega
  obtain ⟨cell, hcell⟩ := hX.cells h
  obtain ⟨s1, s2, s3⟩ := condition_support h hlo hup (X := X) dx hcell
  set R := condition t p n (lower.equations p) N X dx with hR
  set lo := lower.equations p with hlo'
  set up := upper.equations p with hup'
  have hper' : per = true → lo = 0 ∧ up = 0 := by
    intro hc
    rw [Fits, if_pos hc] at hf
    rw [hlo', hup', hf.1, hf.2]
    exact ⟨rfl, rfl⟩
  have hpn : p < nb := by
    cases hpe : per
    · rw [hpe] at hnb; simp at hnb; omega
    · rw [hpe] at hnb; simp at hnb; have := hper hpe; omega
  have hnb2 : nb ≤ n + p := by split_ifs at hnb <;> omega
  -- the rows of the closures
  have hflat : 0 < lo ∨ 0 < up → nb = n + p ∧ off = 0 := by
    intro hc
    cases hpe : per
    · rw [hpe] at hnb; simp at hnb; exact ⟨hnb, hoff hpe⟩
    · have := hper' hpe; omega
  have hj0 : ∀ J : Nat, J < n + p → nb = n + p ∧ off = 0 → ((J : Int) - off) % (nb : Int) = J := by
    rintro J hJ ⟨e1, e2⟩
    rw [e1, e2, sub_zero]
    exact Int.emod_eq_of_lt (by omega) (by omega)
  have hcol : ∀ z : Int, (BitVec.ofInt 64 (z % (nb : Int))).toNat = (z % (nb : Int)).toNat ∧
      0 ≤ z % (nb : Int) ∧ z % (nb : Int) < nb := by
    intro z
    have a1 := Int.emod_nonneg z (show (nb : Int) ≠ 0 by omega)
    have a2 := Int.emod_lt_of_pos z (show (0 : Int) < (nb : Int) by omega)
    exact ⟨toNat_ofInt a1 (by omega), a1, a2⟩
  have en : ∀ x, x < 2 ^ 64 → (BitVec.ofNat 64 x).toNat = x := fun x hx => by
    rw [BitVec.toNat_ofNat, Nat.mod_eq_of_lt hx]
  refine ⟨_, fun m => buildMatrix_eq h hf hX hnb hN h0 h1 dx hcell m, ?_, ?_⟩
  · intro w hw
    rw [hG]
    rcases mem_allWrites.1 hw with ⟨i, j, hi, hj, rfl⟩ | ⟨k, r, hk, hr, rfl⟩ | ⟨i, j, hi, hj, rfl⟩
    · dsimp only
      rw [en i (by omega), en j (by omega)]
      have hz := hflat (.inl (by omega))
      exact ⟨(collocation_one (m := 0) (p := p) hpn (fun J hJ => s1 i J hi (by omega)) (by omega) (by omega)
        (by omega) (hj0 j (by omega) hz)).symm, by omega, by omega⟩
    · dsimp only
      obtain ⟨c1, c2, c3⟩ := hcol (((cell k + r : Nat) : Int) - off)
      have := (hcell k hk).1
      rw [en (lo + k) (by omega), c1]
      exact ⟨(collocation_one (m := cell k) (p := p) hpn (fun J hJ => s2 k J hk hJ) (by omega) (by omega)
        (by omega) (by omega)).symm, by omega, by omega⟩
    · dsimp only
      rw [en (lo + N + i) (by omega), en (n + j) (by omega)]
      have hz := hflat (.inr (by omega))
      exact ⟨(collocation_one (m := n) (p := p) hpn (fun J hJ => s3 i J hi (by omega)) (by omega) (by omega)
        (by omega) (hj0 (n + j) (by omega) hz)).symm, by omega, by omega⟩
  · intro i j hi hj hg
    rw [hG] at hg
    obtain ⟨J, hJ, ej, hr⟩ := collocation_zero hg
    by_cases c1 : i < lo
    · have hJp : J < p := by
        by_contra hc
        exact hr (s1 i J c1 (by omega))
      rw [hj0 J hJ (hflat (.inl (by omega)))] at ej
      refine ⟨_, mem_allWrites.2 (.inl ⟨i, J, c1, hJp, rfl⟩), en i (by omega), ?_⟩
      rw [en J (by omega)]; omega
    · by_cases c2 : i < lo + N
      · obtain ⟨k, rfl⟩ : ∃ k, i = lo + k := ⟨i - lo, by omega⟩
        have hs : cell k ≤ J ∧ J ≤ cell k + p := by
          by_contra hc
          exact hr (s2 k J (by omega) (by omega))
        refine ⟨_, mem_allWrites.2 (.inr (.inl ⟨k, J - cell k, by omega, by omega, rfl⟩)), en _ (by omega), ?_⟩
        dsimp only
        rw [show cell k + (J - cell k) = J by omega]
        obtain ⟨c1, c2, c3⟩ := hcol ((J : Int) - off)
        rw [c1]; omega
      · obtain ⟨k, rfl⟩ : ∃ k, i = lo + N + k := ⟨i - (lo + N), by omega⟩
        have hs : n ≤ J ∧ J < n + p := by
          by_contra hc
          exact hr (s3 k J (by omega) (by omega))
        rw [hj0 J hJ (hflat (.inr (by omega)))] at ej
        refine ⟨_, mem_allWrites.2 (.inr (.inr ⟨k, J - n, by omega, by omega, rfl⟩)), en _ (by omega), ?_⟩
        dsimp only
        rw [show n + (J - n) = J by omega, en J (by omega)]; omega

/-- The matrix of the builder is the matrix of the conditions. -/
theorem buildMatrix_is (h : bs.Is per p n t) {lower upper : Closure} (hf : Fits per lower upper) {s N : Nat}
    {coord : Elem Unit → Res K} {X : Nat → K} (hX : PointsIn t p n s N coord X) {nb : Nat}
    (hnb : nb = if per then n else n + p) (hN : lower.equations p + N + upper.equations p = nb) {off : Int}
    (h0 : 0 ≤ off) (h1 : off < 2 ^ 31) (hoff : per = false → off = 0) (hper : per = true → p < n) (dx : K)
    {G : Nat → Nat → K} (hG : G = collocation (condition t p n (lower.equations p) N X dx) (n + p) nb off)
    {m m' : LinProb K} (hm : Fresh m nb)
    (hsame : ∀ i j k l : Nat, i < nb → j < nb → k < nb → l < nb → m.Same (i, j) (k, l) → G i j = G k l)
    (htiny : ∀ i j, i < nb → j < nb → |G i j| < 1 / 10 ^ 15 → G i j = 0 ∨ m.Stored i j)
    (e : buildMatrix bs lower upper (seg () s (s + N)) coord dx off m = .ok m') :
    m'.Shaped ∧ m'.size = m.size ∧ m'.Same = m.Same ∧
      ∀ i j, i < nb → j < nb → m'.shown i j = G i j := by
  obtain ⟨ws, hw, hval, hcov⟩ := buildMatrix_writes h hf hX hnb hN h0 h1 hoff hper dx hG
  rw [hw] at e
  exact matrix_of_writes hm e (fun w h => (hval w h).1) hcov hsame htiny

/-- The construction of the matrix succeeds when its pattern is the one of the storage. -/
theorem buildMatrix_ok (h : bs.Is per p n t) {lower upper : Closure} (hf : Fits per lower upper) {s N : Nat}
    {coord : Elem Unit → Res K} {X : Nat → K} (hX : PointsIn t p n s N coord X) {nb : Nat}
    (hnb : nb = if per then n else n + p) (hN : lower.equations p + N + upper.equations p = nb) {off : Int}
    (h0 : 0 ≤ off) (h1 : off < 2 ^ 31) (hoff : per = false → off = 0) (hper : per = true → p < n) (dx : K)
    {G : Nat → Nat → K} (hG : G = collocation (condition t p n (lower.equations p) N X dx) (n + p) nb off)
    {m : LinProb K} (hm : Fresh m nb)
    (hst : ∀ i j, i < nb → j < nb → G i j ≠ 0 → m.Stored i j) :
    ∃ m', buildMatrix bs lower upper (seg () s (s + N)) coord dx off m = .ok m' := by
  obtain ⟨ws, hw, hval, hcov⟩ := buildMatrix_writes h hf hX hnb hN h0 h1 hoff hper dx hG
  obtain ⟨m', e, -⟩ := C38_history m hm.shaped ws (fun w hw => by
    obtain ⟨v1, v2, v3⟩ := hval w hw
    refine ⟨by rw [hm.size]; exact v2, by rw [hm.size]; exact v3, ?_⟩
    by_cases hg : G w.1.toNat w.2.1.toNat = 0
    · right
      rw [v1, hg, abs_zero]
      positivity
    · exact .inl (hst _ _ v2 v3 hg))
  exact ⟨m', by rw [hw, e]⟩

end DDC.Props
