import Verif.Props.C44

/-!
# C42: periodic splines

The coefficients that the builder writes are periodic, and the evaluation of a spline with periodic coefficients is a
periodic function of the coordinate, in any number of dimensions.
-/

set_option linter.unusedSectionVars false

namespace DDC.Props

open One Dom Spec Eval Polynomial

section

variable {K : Type} [Field K] [LinearOrder K] [IsStrictOrderedRing K]

/-- A B-spline vanishes at the end of its last cell. -/
theorem piece_right_zero (t : Nat → K) {c q J : Nat} (hq : 0 < q) (h : J + q = c) :
    (piece t c q J).eval (t (c + 1)) = 0 := by
  obtain ⟨q, rfl⟩ : ∃ r, q = r + 1 := ⟨q - 1, by omega⟩
  subst h
  rw [piece, piece_zero _ _ q J (by omega)]
  simp [show J + (q + 1) + 1 = J + q + 2 by omega]

/-- A B-spline vanishes at the start of its first cell. -/
theorem piece_left_zero (t : Nat → K) {c q : Nat} (hq : 0 < q) : (piece t c q c).eval (t c) = 0 := by
  obtain ⟨q, rfl⟩ : ∃ r, q = r + 1 := ⟨q - 1, by omega⟩
  rw [piece, piece_zero _ _ q (c + 1) (by omega)]
  simp

/-- The values of the B-splines at the end of the domain are those of the B-splines a period before at its start. -/
theorem piece_period {t : Nat → K} {p n : Nat} (hn : 0 < n) (h1 : t p < t (p + 1)) (h2 : t (p + n - 1) < t (p + n))
    (hr : Rep t p n) {q : Nat} (hq : 0 < q) (hqp : q ≤ p) (j : Nat) :
    (piece t (p + n - 1) q (n + j)).eval (t (p + n)) = (piece t p q j).eval (t p) := by
  induction q generalizing j with
  | zero => omega
  | succ q ih =>
    have ec : p + n - 1 + 1 = p + n := by omega
    by_cases hj : p ≤ j
    · rw [piece_zero _ _ _ (n + j) (by omega)]
      rcases Nat.lt_or_ge p j with h | h
      · rw [piece_zero _ _ _ j (by omega)]
        simp
      · rw [show j = p by omega, piece_left_zero t (Nat.succ_pos q)]
        simp
    · rcases Nat.eq_zero_or_pos q with rfl | hq'
      · -- hat functions
        have d1 : t (p + n) - t (p + n - 1) ≠ 0 := (sub_pos.2 h2).ne'
        have d2 : t (p + 1) - t p ≠ 0 := (sub_pos.2 h1).ne'
        by_cases e : j + 1 = p
        · subst e
          rw [piece, piece, piece, piece, piece, piece]
          rw [if_pos (by omega), if_neg (by omega), if_neg (by omega), if_pos (by omega)]
          have g1 : n + j = j + 1 + n - 1 := by omega
          have g2 : n + j + 0 + 1 = j + 1 + n := by omega
          rw [g1] at g2 ⊢
          rw [g2]
          simp only [mul_one, mul_zero, add_zero, zero_add, eval_mul, eval_C, eval_sub, eval_X]
          rw [show j + 0 + 2 = j + 1 + 1 by omega]
          field_simp
        · rw [piece_zero _ _ _ j (by omega), eval_zero]
          by_cases e' : j + 2 = p
          · have := piece_right_zero t (q := 0 + 1) (c := p + n - 1) (J := n + j) (by omega) (by omega)
            rwa [ec] at this
          · rw [piece_zero _ _ _ (n + j) (by omega), eval_zero]
      · have k1 := hr j (by omega)
        have k2 := hr (j + 1) (by omega)
        have k3 := hr (j + q + 1) (by omega)
        have k4 := hr (j + q + 2) (by omega)
        have k5 := hr p (by omega)
        rw [piece, piece]
        simp only [eval_add, eval_mul, eval_C, eval_sub, eval_X]
        rw [ih hq' (by omega) j, show n + j + 1 = n + (j + 1) by omega, ih hq' (by omega) (j + 1)]
        rw [show n + j + q + 1 = j + q + 1 + n by omega, show n + j + q + 2 = j + q + 2 + n by omega,
          show n + (j + 1) = j + 1 + n by omega, Nat.add_comm n j, k1, k2, k3, k4]
        have s1 : t (j + q + 1) + (t (p + n) - t p) - (t j + (t (p + n) - t p)) = t (j + q + 1) - t j := by ring
        have s2 : t (j + q + 2) + (t (p + n) - t p) - (t (j + 1) + (t (p + n) - t p)) = t (j + q + 2) - t (j + 1) := by ring
        have s3 : t (p + n) - (t j + (t (p + n) - t p)) = t p - t j := by ring
        have s4 : t (j + q + 2) + (t (p + n) - t p) - t (p + n) = t (j + q + 2) - t p := by ring
        rw [s1, s2, s3, s4]

end

variable {K : Type} [Field K] [LinearOrder K] [IsStrictOrderedRing K] [FloorRing K]

variable {bs : BSpl K} {p n : Nat} {t : Nat → K}

/-- A sum over the B-splines, with periodic coefficients, takes the same value at the two ends of the domain. -/
theorem ends_sum (h : bs.Is true p n t) {F : Nat → K} (hF : ∀ i, i < p → F (n + i) = F i) :
    ∑ J ∈ Finset.range (n + p), bspline t (t (p + n)) p J (t (p + n)) * F J =
      ∑ J ∈ Finset.range (n + p), bspline t (t (p + n)) p J (t p) * F J := by
  have hp := h.pos
  have hn := h.cells
  have e1 : p + n - 1 + 1 = p + n := by omega
  have c1 : InCell t (t (p + n)) (t (p + n)) (p + n - 1) := by
    rw [InCell, if_neg (lt_irrefl _), e1]
    exact ⟨h.last, le_refl _⟩
  have c2 : InCell t (t (p + n)) (t p) p := by
    rw [InCell, if_pos h.ends]
    exact ⟨le_refl _, h.first⟩
  simp only [bspline_eq_piece h.mono c1, bspline_eq_piece h.mono c2]
  rw [Finset.sum_range_add]
  rw [Finset.sum_eq_zero, zero_add]
  · rw [Nat.add_comm n p, Finset.sum_range_add, Finset.sum_eq_zero (s := Finset.range n), add_zero]
    · refine Finset.sum_congr rfl fun j hj => ?_
      rw [piece_period hn h.first h.last (h.rep rfl) hp (le_refl _), hF j (Finset.mem_range.1 hj)]
    · intro j _
      rcases Nat.eq_zero_or_pos j with rfl | hj
      · rw [Nat.add_zero, piece_left_zero t hp, zero_mul]
      · rw [piece_zero _ _ _ _ (by omega), eval_zero, zero_mul]
  · intro j hj
    have hj := Finset.mem_range.1 hj
    by_cases e : j + 1 = n
    · rw [show p + n - 1 = j + p by omega, show p + n = j + p + 1 by omega, piece_right_zero t hp rfl, zero_mul]
    · rw [piece_zero _ _ _ _ (by omega), eval_zero, zero_mul]

/-- Two coordinates of the domain that differ by a multiple of the period are the same or are the two ends. -/
theorem same_or_ends {a b y y' : K} {k : Int} (hab : a < b) (h1 : a ≤ y ∧ y ≤ b) (h2 : a ≤ y' ∧ y' ≤ b)
    (h : y' = y + k * (b - a)) : y' = y ∨ (y = a ∧ y' = b) ∨ (y = b ∧ y' = a) := by
  have hL : 0 < b - a := sub_pos.2 hab
  rcases lt_trichotomy k 0 with hk | rfl | hk
  · right; right
    have : (k : K) ≤ -1 := by exact_mod_cast (by omega : k ≤ -1)
    have : (k : K) * (b - a) ≤ -1 * (b - a) := mul_le_mul_of_nonneg_right this hL.le
    constructor <;> linarith [h1.1, h1.2, h2.1, h2.2]
  · left; simpa using h
  · right; left
    have : (1 : K) ≤ k := by exact_mod_cast hk
    have : 1 * (b - a) ≤ (k : K) * (b - a) := mul_le_mul_of_nonneg_right this hL.le
    constructor <;> linarith [h1.1, h1.2, h2.1, h2.2]

/-- The values at congruent coordinates of the domain. -/
theorem period_sum (h : bs.Is true p n t) {F : Nat → K} (hF : ∀ i, i < p → F (n + i) = F i) {y y' : K} {k : Int}
    (h1 : t p ≤ y ∧ y ≤ t (p + n)) (h2 : t p ≤ y' ∧ y' ≤ t (p + n)) (hk : y' = y + k * (t (p + n) - t p)) :
    ∑ J ∈ Finset.range (n + p), bspline t (t (p + n)) p J y' * F J =
      ∑ J ∈ Finset.range (n + p), bspline t (t (p + n)) p J y * F J := by
  rcases same_or_ends h.ends h1 h2 hk with rfl | ⟨rfl, rfl⟩ | ⟨rfl, rfl⟩
  · rfl
  · exact ends_sum h hF
  · exact (ends_sum h hF).symm

theorem splineValue_period (h : bs.Is true p n t) {c : Nat → K} (hc : ∀ i, i < p → c (n + i) = c i) {y y' : K} {k : Int}
    (h1 : t p ≤ y ∧ y ≤ t (p + n)) (h2 : t p ≤ y' ∧ y' ≤ t (p + n)) (hk : y' = y + k * (t (p + n) - t p)) :
    splineValue t p n c y' = splineValue t p n c y := by
  have := period_sum h hc h1 h2 hk
  simp only [splineValue, mul_comm (c _)]
  exact this

/-- The evaluation is defined everywhere and periodic: its value is that of the spline at any congruent coordinate of the
domain. -/
theorem C42_value {s : Side K} (h : s.bs.Is true p n t) {c : Nat → K} (hper : ∀ i, i < p → c (n + i) = c i) {coef : Coefs K}
    (hc : ∀ J, J < n + p → coef [BitVec.ofNat 64 J] = .ok (c J)) {x y : K} (k : Int) (hy : t p ≤ y ∧ y ≤ t (p + n))
    (hx : x = y + k * (t (p + n) - t p)) : eval1 s x coef = .ok (splineValue t p n c y) := by
  obtain ⟨z, hz, e⟩ := C44_periodic_1d h x hc
  obtain ⟨k', hk'⟩ := hz.multiple rfl
  rw [e, splineValue_period h hper hy (hz.inside rfl) (k := k - k') (by push_cast; linarith)]

/-- Adding a multiple of the period to the coordinate does not change the value. -/
theorem C42_periodic {s : Side K} (h : s.bs.Is true p n t) {c : Nat → K} (hper : ∀ i, i < p → c (n + i) = c i)
    {coef : Coefs K} (hc : ∀ J, J < n + p → coef [BitVec.ofNat 64 J] = .ok (c J)) (x : K) (k : Int) :
    eval1 s (x + k * (t (p + n) - t p)) coef = eval1 s x coef := by
  obtain ⟨z, hz, e⟩ := C44_periodic_1d h x hc
  obtain ⟨k', hk'⟩ := hz.multiple rfl
  rw [e, C42_value h hper hc (k + k') (hz.inside rfl) (by push_cast; rw [hk']; ring)]

/-! ## Any number of dimensions -/

/-- The coefficients are periodic along the periodic dimensions. -/
def PeriodicCoefs : List (Desc K) → (List Nat → K) → Prop
  | [], _ => True
  | d :: ds, c => (d.per = true → ∀ i, i < d.p → ∀ l, c ((d.n + i) :: l) = c (i :: l)) ∧
      ∀ J, PeriodicCoefs ds fun l => c (J :: l)

/-- `y'` is congruent to `y` in a periodic dimension, and the same in another one. -/
def Congruent (d : Desc K) (yy : K × K) : Prop :=
  (d.per = false → yy.2 = yy.1) ∧ (d.per = true → ∃ k : Int, yy.2 = yy.1 + k * (d.b - d.a))

theorem tensor_period {ds : List (Desc K)} {sides : List (Side K)} (h : List.Forall₂ Desc.Of ds sides) {y y' : List K}
    (hl : y.length = ds.length) (hl' : y'.length = ds.length)
    (hy : List.Forall₂ (fun (d : Desc K) y => d.per = true → d.a ≤ y ∧ y ≤ d.b) ds y)
    (hy' : List.Forall₂ (fun (d : Desc K) y => d.per = true → d.a ≤ y ∧ y ≤ d.b) ds y')
    (hc : List.Forall₂ Congruent ds (List.zip y y')) {c : List Nat → K} (hper : PeriodicCoefs ds c) :
    tensor (List.zipWith Desc.weights ds y') c = tensor (List.zipWith Desc.weights ds y) c := by
  induction h generalizing y y' c with
  | nil => rfl
  | @cons d s ds sides hd _ ih =>
    obtain ⟨y0, y, rfl⟩ := List.exists_cons_of_length_eq_add_one hl
    obtain ⟨y0', y', rfl⟩ := List.exists_cons_of_length_eq_add_one hl'
    obtain ⟨g1, g2⟩ := List.forall₂_cons.1 hy
    obtain ⟨g1', g2'⟩ := List.forall₂_cons.1 hy'
    rw [List.zip_cons_cons] at hc
    obtain ⟨k1, k2⟩ := List.forall₂_cons.1 hc
    simp only [List.zipWith_cons_cons, Desc.weights, tensor]
    have e : ∀ J, tensor (List.zipWith Desc.weights ds y') (fun l => c (J :: l)) =
        tensor (List.zipWith Desc.weights ds y) (fun l => c (J :: l)) := fun J =>
      ih (by simpa using hl) (by simpa using hl') g2 g2' k2 (hper.2 J)
    simp only [e]
    cases hp : d.per with
    | false =>
      have := k1.1 hp
      dsimp only at this
      rw [this]
    | true =>
      obtain ⟨k, hk⟩ := k1.2 hp
      have hd' : s.bs.Is true d.p d.n d.t := hp ▸ hd
      exact period_sum hd' (F := fun J => tensor (List.zipWith Desc.weights ds y) fun l => c (J :: l))
        (fun i hi => by
          congr 1
          funext l
          exact hper.1 hp i hi l) (g1 hp) (g1' hp) hk

/-- In any number of dimensions, moving a coordinate by multiples of the periods does not change the value, where the
coordinates along the other dimensions are inside the domain. -/
theorem C42_nd {ds : List (Desc K)} {sides : List (Side K)} (hne : ds ≠ []) (h : List.Forall₂ Desc.Of ds sides)
    {x x' : List K} (hin : List.Forall₂ (fun (d : Desc K) x => d.per = true ∨ (d.a ≤ x ∧ x ≤ d.b)) ds x)
    (hl' : x'.length = ds.length) (hx : List.Forall₂ Congruent ds (List.zip x x')) {coef : Coefs K}
    {c : List Nat → K} (hc : Holds (ds.map fun d => d.n + d.p) coef c) (hper : PeriodicCoefs ds c) :
    evalN sides x' coef = evalN sides x coef := by
  have hl : x.length = ds.length := hin.length_eq.symm
  have hin' : List.Forall₂ (fun (d : Desc K) x => d.per = true ∨ (d.a ≤ x ∧ x ≤ d.b)) ds x' := by
    clear hper hc h hne
    induction ds generalizing x x' with
    | nil => cases x' with | nil => exact .nil | cons => simp at hl'
    | cons d ds ih =>
      obtain ⟨x0, x, rfl⟩ := List.exists_cons_of_length_eq_add_one hl
      obtain ⟨x0', x', rfl⟩ := List.exists_cons_of_length_eq_add_one hl'
      obtain ⟨g1, g2⟩ := List.forall₂_cons.1 hin
      rw [List.zip_cons_cons] at hx
      obtain ⟨k1, k2⟩ := List.forall₂_cons.1 hx
      refine .cons ?_ (ih g2 (by simpa using hl') k2 (by simpa using hl))
      rcases g1 with g1 | g1
      · exact Or.inl g1
      · cases hp : d.per with
        | true => exact Or.inl rfl
        | false => exact Or.inr (by have := k1.1 hp; dsimp only at this; rw [this]; exact g1)
  obtain ⟨y, r1, l1, e1⟩ := C44_inside hne h hl hin hc
  obtain ⟨y', r2, l2, e2⟩ := C44_inside hne h hl' hin' hc
  rw [e1, e2]
  congr 1
  have key : List.Forall₂ (fun (d : Desc K) y => d.per = true → d.a ≤ y ∧ y ≤ d.b) ds y ∧
      List.Forall₂ (fun (d : Desc K) y => d.per = true → d.a ≤ y ∧ y ≤ d.b) ds y' ∧
      List.Forall₂ Congruent ds (List.zip y y') := by
    clear hper hc h hne e1 e2 hin hin'
    induction ds generalizing x x' y y' with
    | nil =>
      cases y with
      | cons => simp at l1
      | nil =>
        cases y' with
        | nil => exact ⟨.nil, .nil, .nil⟩
        | cons => simp at l2
    | cons d ds ih =>
      obtain ⟨x0, x, rfl⟩ := List.exists_cons_of_length_eq_add_one hl
      obtain ⟨x0', x', rfl⟩ := List.exists_cons_of_length_eq_add_one hl'
      obtain ⟨y0, y, rfl⟩ := List.exists_cons_of_length_eq_add_one l1
      obtain ⟨y0', y', rfl⟩ := List.exists_cons_of_length_eq_add_one l2
      rw [List.zip_cons_cons] at hx r1 r2
      obtain ⟨k1, k2⟩ := List.forall₂_cons.1 hx
      obtain ⟨m1, m2⟩ := List.forall₂_cons.1 r1
      obtain ⟨o1, o2⟩ := List.forall₂_cons.1 r2
      obtain ⟨i1, i2, i3⟩ := ih (by simpa using hl') k2 (by simpa using hl) y m2 (by simpa using l1) y' o2 (by simpa using l2)
      refine ⟨.cons m1.inside i1, .cons o1.inside i2, .cons ⟨fun hp => ?_, fun hp => ?_⟩ i3⟩
      · have a1 := m1.same hp
        have a2 := o1.same hp
        have a3 := k1.1 hp
        dsimp only at a1 a2 a3 ⊢
        rw [a1, a2, a3]
      · obtain ⟨a, ha⟩ := m1.multiple hp
        obtain ⟨b, hb⟩ := o1.multiple hp
        obtain ⟨k, hk⟩ := k1.2 hp
        dsimp only at ha hb hk ⊢
        exact ⟨k + a - b, by push_cast; linarith⟩
  exact tensor_period h l1 l2 key.1 key.2.1 key.2.2 hper

/-! ## Building, then evaluating -/

/-- The evaluation on a mesh gives at each point, for each batch index, the evaluation of the column of the coefficients
at the coordinate of the point, for any order of the parallel loop. -/
theorem C42_mesh {σ : Sched} (hσ : σ.Valid) {s : Side K} {coords coef out : Mat K} (hr : coords.rows = out.rows)
    (hc : coords.cols = out.cols) {f : Nat → Nat → K}
    (hf : ∀ i j, i < out.rows → j < out.cols → eval1 s (coords.val i j) (column coef j) = .ok (f i j)) :
    ∃ out', evalMesh1 σ s coords coef out = .ok out' ∧ out'.rows = out.rows ∧ out'.cols = out.cols ∧
      ∀ i j, i < out.rows → j < out.cols → out'.val i j = f i j := by
  obtain ⟨b', e, r1, r2, r3⟩ := colLoop_ok hσ (R := out.rows) (C := out.cols)
    (f := fun j => forLoop (fun i out => do
      let x ← coords.rd i j
      let y ← eval1 s x (column coef j)
      out.wr i j y) 0 out.rows)
    (fun c y r => if r < out.rows then f r c else y r)
    (fun b1 j e1 e2 hj => by
      have := moveLoop (S := fun i _ => (coords.rd i j >>= fun x => eval1 s x (column coef j)))
        (D := fun i => i) (d := 0) (lo := 0) (n := out.rows) (j := j) (b := b1) (g := fun i => f i j)
        (fun i _ _ => (Nat.zero_add i).symm) (by omega) (by omega)
        (fun i b' _ hi _ _ _ => by
          rw [Mat.rd, if_pos (by omega), Res.ok_bind, hf i j (by omega) hj])
      simp only [bind_assoc] at this
      rw [this, e1, e2]
      congr
      funext r c
      by_cases hc : c = j
      · subst hc
        simp
      · simp [hc]) out rfl rfl
  exact ⟨b', e, r1, r2, fun i j hi hj => by rw [r3 i j hj, if_pos hi]⟩

/-- The same for the derivatives. -/
theorem C42_mesh_deriv {σ : Sched} (hσ : σ.Valid) {bs : BSpl K} {o : U64} {coords coef out : Mat K} (hr : coords.rows = out.rows)
    (hc : coords.cols = out.cols) {f : Nat → Nat → K}
    (hf : ∀ i j, i < out.rows → j < out.cols → deriv1 bs o (coords.val i j) (column coef j) = .ok (f i j)) :
    ∃ out', derivMesh1 σ bs o coords coef out = .ok out' ∧ out'.rows = out.rows ∧ out'.cols = out.cols ∧
      ∀ i j, i < out.rows → j < out.cols → out'.val i j = f i j := by
  obtain ⟨b', e, r1, r2, r3⟩ := colLoop_ok hσ (R := out.rows) (C := out.cols)
    (f := fun j => forLoop (fun i out => do
      let x ← coords.rd i j
      let y ← deriv1 bs o x (column coef j)
      out.wr i j y) 0 out.rows)
    (fun c y r => if r < out.rows then f r c else y r)
    (fun b1 j e1 e2 hj => by
      have := moveLoop (S := fun i _ => (coords.rd i j >>= fun x => deriv1 bs o x (column coef j)))
        (D := fun i => i) (d := 0) (lo := 0) (n := out.rows) (j := j) (b := b1) (g := fun i => f i j)
        (fun i _ _ => (Nat.zero_add i).symm) (by omega) (by omega)
        (fun i b' _ hi _ _ _ => by
          rw [Mat.rd, if_pos (by omega), Res.ok_bind, hf i j (by omega) hj])
      simp only [bind_assoc] at this
      rw [this, e1, e2]
      congr
      funext r c
      by_cases hc : c = j
      · subst hc
        simp
      · simp [hc]) out rfl rfl
  exact ⟨b', e, r1, r2, fun i j hi hj => by rw [r3 i j hj, if_pos hi]⟩

theorem column_ok {m : Mat K} {N j : Nat} (hr : m.rows = N) (hN : N < 2 ^ 64) (hj : j < m.cols) {J : Nat} (hJ : J < N) :
    column m j [BitVec.ofNat 64 J] = .ok (m.val J j) := by
  rw [column, BitVec.toNat_ofNat, Nat.mod_eq_of_lt (by omega), Mat.rd, if_pos (by omega)]

/-- The spline that the builder computes, evaluated at the interpolation points, gives the values back; for a periodic
dimension its coefficients are periodic and its evaluation is a periodic function.  The hypotheses are those of
`C41_interpolates_partial`. -/
theorem C42_built_partial {per : Bool} (h : bs.Is per p n t) {L : Lapack K} (hL : L.Exact) {σ : Sched} (hσ : σ.Valid)
    {lower upper : Closure} {s N : Nat} {coord : Elem Unit → Res K} {X : Nat → K}
    (hX : PointsIn t p n s N coord X) {B : Builder K}
    (hB : Builder.mk' L σ bs lower upper (seg () s (s + N)) coord = .ok B)
    (hoff : 0 ≤ B.offset ∧ B.offset ≤ p) (hper : per = true → p < n) {G : Nat → Nat → K} {nb : Nat}
    (hnb : nb = if per then n else n + p)
    (hG : G = collocation (condition t p n (edgeEquations lower p) N X ((t (p + n) - t p) / n)) (n + p) nb B.offset)
    (hclean : B.matrix.Clean) (htiny : ∀ i j, i < nb → j < nb → |G i j| < 1 / 10 ^ 15 → G i j = 0)
    (hsym : bs.isUniform = true → ∀ i j, i < nb → j < nb → B.matrix.Same (i, j) (j, i) → G i j = G j i)
    {σ' : Sched} (hσ' : σ'.Valid) (junk : Nat → Nat → K) (spline vals : Mat K) (dmin dmax : Option (U64 × Mat K))
    (hs : spline.rows = n + p) (hv : vals.rows = N) (hc : vals.cols = spline.cols)
    (hmin : GivenDerivs lower p spline.cols dmin) (hmax : GivenDerivs upper p spline.cols dmax) (rl ru : Rule K) :
    ∃ spline', B.apply L σ' junk spline vals dmin dmax = .ok spline' ∧ spline'.rows = n + p ∧ spline'.cols = spline.cols ∧
      ∀ j, j < spline.cols →
        (∀ k, k < N → eval1 ⟨bs, rl, ru⟩ (X k) (column spline' j) = .ok (vals.val k j)) ∧
        (per = true → (∀ i, i < p → spline'.val (n + i) j = spline'.val i j) ∧ ∀ x (k : Int),
          eval1 ⟨bs, rl, ru⟩ (x + k * (t (p + n) - t p)) (column spline' j) = eval1 ⟨bs, rl, ru⟩ x (column spline' j)) := by
  obtain ⟨S, e, r1, r2, r3⟩ := C41_interpolates_partial h hL hσ hX hB hoff hper hnb hG hclean htiny hsym hσ' junk spline vals
    dmin dmax hs hv hc hmin hmax
  have hsm := h.small
  refine ⟨S, e, r1, r2, fun j hj => ?_⟩
  obtain ⟨i1, i2⟩ := r3 j hj
  have hcol : ∀ J, J < n + p → column S j [BitVec.ofNat 64 J] = .ok (S.val J j) := fun J hJ =>
    column_ok r1 (by omega) (by omega) hJ
  refine ⟨fun k hk => ?_, fun hpe => ⟨i2 hpe, fun x k => ?_⟩⟩
  · rw [C44_inside_1d (s := ⟨bs, rl, ru⟩) h (hX.ge k hk) (hX.le k hk) hcol, i1.value k hk]
  · subst hpe
    exact C42_periodic (s := ⟨bs, rl, ru⟩) h (i2 rfl) hcol x k

/-- The derivatives are not periodic functions of the coordinate: outside the domain, `deriv` fails. -/
theorem C42_deriv_not_periodic :
    (do
      let u ← NUBS.mk' 2 true [(0 : Rat), 1, 2, 3]
      let y ← deriv1 (.nonUniform u) 1 1 (fun _ => .ok 1)
      .ok (y, deriv1 (.nonUniform u) 1 (1 + 3) (fun _ => .ok 1))) = .ok (0, .abort) := by
  decide +kernel

/-- A case that meets the hypotheses: quadratic B-splines on 3 cells. -/
example (x : Rat) (k : Int) : ∃ u, UBS.mk' 2 true (0 : Rat) 3 3 = .ok u ∧
    eval1 ⟨.uniform u, nullRule, nullRule⟩ (x + k * 3) (fun l => .ok ((l.headI.toNat % 3 : Nat) : Rat)) =
      eval1 ⟨.uniform u, nullRule, nullRule⟩ x (fun l => .ok ((l.headI.toNat % 3 : Nat) : Rat)) := by
  obtain ⟨u, eu, hu⟩ := BSpl.is_uniform (p := 2) (by norm_num) true (a := (0 : Rat)) (b := 3) (by norm_num) (n := 3)
    (by norm_num) (by norm_num)
  refine ⟨u, eu, ?_⟩
  have := C42_periodic (s := ⟨.uniform u, nullRule, nullRule⟩) hu (c := fun J => ((J % 3 : Nat) : Rat))
    (fun i _ => by simp) (coef := fun l => .ok ((l.headI.toNat % 3 : Nat) : Rat))
    (fun J hJ => by
      simp only [List.headI, BitVec.toNat_ofNat]
      rw [Nat.mod_eq_of_lt (a := J) (by omega)]) x k
  rw [show (uniformKnot (0 : Rat) 3 3 2 (2 + 3) - uniformKnot (0 : Rat) 3 3 2 2) = 3 by decide +kernel] at this
  exact this

end DDC.Props
