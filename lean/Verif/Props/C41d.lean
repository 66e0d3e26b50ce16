import Verif.Props.C41c
import Verif.Lemmas.Cardinal

/-!
# C41, continued: the interpolation points of uniform B-splines

`C41_interpolates_partial` and `C41_approximates_partial` assume that the matrices stored as symmetric are
symmetric and that the shift is between `0` and the degree.  Here both are proved for uniform B-splines
when each point of the main block is the centre of the support of its B-spline (`C41_symmetric`), and this
is the case of the points that `GrevilleInterpolationPoints` computes (`C41_greville`).
-/

set_option linter.unusedSectionVars false

namespace DDC.Props

open One Dom LinProb Spec Builder

variable {K : Type} [Field K] [LinearOrder K] [IsStrictOrderedRing K]

/-- The centre of the support of B-spline `J`. -/
def supportCentre (a b : K) (n p J : Nat) : K := (uniformKnot a b n p J + uniformKnot a b n p (J + p + 1)) / 2

/-- The number of rows of an edge: the rows between the two edges are the main block. -/
def edgeRows : Closure → Nat → Nat
  | .greville, p => p - 1
  | _, p => p / 2

variable {a b : K} {p n : Nat}

theorem supportCentre_eq (J : Nat) :
    supportCentre a b n p J = uniformKnot a b n p J + ((p : K) + 1) / 2 * ((b - a) / n) := by
  rw [supportCentre, show J + p + 1 = J + (p + 1) by omega, uniformKnot_step]
  push_cast
  ring

/-- The centre of a support, from the first point of the domain. -/
theorem supportCentre_half (k : Nat) : supportCentre a b n p (k + p / 2) =
    a + ((if p % 2 = 0 then 1 / 2 else 0 : K) + (k : K)) * ((b - a) / n) := by
  rw [supportCentre_eq, uniformKnot]
  have : (p : K) = 2 * ((p / 2 : Nat) : K) + ((p % 2 : Nat) : K) := by
    rw [← Nat.cast_ofNat, ← Nat.cast_mul, ← Nat.cast_add, Nat.div_add_mod]
  rcases Nat.mod_two_eq_zero_or_one p with h2 | h2
  · rw [if_pos h2]
    rw [h2] at this
    push_cast
    rw [show ((p / 2 : Nat) : K) = p / 2 by rw [this]; push_cast; ring]
    ring
  · rw [if_neg (by omega)]
    rw [h2] at this
    push_cast
    rw [show ((p / 2 : Nat) : K) = (p - 1) / 2 by rw [this]; push_cast; ring]
    ring

/-- The value of a B-spline at the centre of the support of another, as a function of the distance. -/
def atCentre (p : Nat) (d : Int) : K := cardinal (p - 1) ((d : K) + ((p : K) + 1) / 2)

theorem atCentre_neg (hp : 0 < p) (d : Int) : (atCentre p (-d) : K) = atCentre p d := by
  rw [atCentre, atCentre, ← cardinal_symm]
  congr 1
  rw [Nat.cast_sub hp]
  push_cast
  ring

theorem atCentre_zero (hp : 0 < p) {d : Int} (hd : (p : Int) + 1 ≤ 2 * d ∨ 2 * d ≤ -((p : Int) + 1)) :
    (atCentre p d : K) = 0 := by
  rcases hd with hd | hd
  · refine cardinal_big _ ?_
    rw [Nat.cast_sub hp]
    have : (p : K) + 1 ≤ 2 * (d : K) := by exact_mod_cast hd
    push_cast
    linarith
  · refine cardinal_neg _ ?_
    have : 2 * (d : K) ≤ -((p : K) + 1) := by exact_mod_cast hd
    linarith

theorem bspline_centre (hp : 0 < p) (hab : a < b) (hn : 0 < n) (z : K) (I J : Nat) :
    bspline (uniformKnot a b n p) z p J (supportCentre a b n p I) = atCentre p ((I : Int) - J) := by
  obtain ⟨q, rfl⟩ : ∃ q, p = q + 1 := ⟨p - 1, by omega⟩
  have hn' : (0 : K) < n := by exact_mod_cast hn
  have h0 : 0 < (b - a) / (n : K) := div_pos (sub_pos.2 hab) hn'
  rw [bspline_cardinal h0 (fun k j => uniformKnot_step k j), atCentre, supportCentre_eq, uniformKnot, uniformKnot,
    Nat.add_sub_cancel]
  congr 1
  rw [div_eq_iff h0.ne']
  push_cast
  ring

theorem sum_single_int {size : Nat} {F : Int → K} {c : Int} (h : ¬(0 ≤ c ∧ c < size) → F c = 0) :
    (∑ J ∈ Finset.range size, if (J : Int) = c then F J else 0) = F c := by
  by_cases hc : 0 ≤ c ∧ c < size
  · rw [Finset.sum_eq_single c.toNat]
    · rw [if_pos (by omega)]
      congr 1
      omega
    · intro J _ hJ
      rw [if_neg (by omega)]
    · intro hJ
      exact absurd (Finset.mem_range.2 (by omega)) hJ
  · rw [h hc, Finset.sum_eq_zero]
    intro J hJ
    have := Finset.mem_range.1 hJ
    rw [if_neg (by omega)]

/-- The matrix of a periodic dimension: the values of the three copies of a B-spline that can reach a
point. -/
theorem collocation_periodic (hp : 0 < p) (hpn : p < n) {R : Nat → Nat → K}
    (hR : ∀ i J, i < n → J < n + p → R i J = atCentre p ((i : Int) + (p / 2 : Nat) - J)) {i j : Nat} (hi : i < n) (hj : j < n) :
    collocation R (n + p) n ((p / 2 : Nat) : Int) i j =
      atCentre p ((i : Int) - j + n) + atCentre p ((i : Int) - j) + atCentre p ((i : Int) - j - n) := by
  have h1 : ∀ J ∈ Finset.range (n + p), (if ((J : Int) - ((p / 2 : Nat) : Int)) % (n : Int) = j then R i J else 0) =
      (if (J : Int) = j + (p / 2 : Nat) - n then atCentre p ((i : Int) + (p / 2 : Nat) - (J : Int)) else 0) +
      (if (J : Int) = j + (p / 2 : Nat) then atCentre p ((i : Int) + (p / 2 : Nat) - (J : Int)) else 0) +
      (if (J : Int) = j + (p / 2 : Nat) + n then atCentre p ((i : Int) + (p / 2 : Nat) - (J : Int)) else 0) := by
    intro J hJ
    have hJ := Finset.mem_range.1 hJ
    rw [hR i J hi hJ]
    have key : ((J : Int) - ((p / 2 : Nat) : Int)) % (n : Int) = j ↔ (J : Int) = j + (p / 2 : Nat) - n ∨
        (J : Int) = j + (p / 2 : Nat) ∨ (J : Int) = j + (p / 2 : Nat) + n := by
      constructor
      · intro h
        have e := Int.emod_add_mul_ediv ((J : Int) - ((p / 2 : Nat) : Int)) (n : Int)
        rw [h] at e
        generalize ((J : Int) - ((p / 2 : Nat) : Int)) / (n : Int) = q at e
        have q1 : -2 < q := by
          by_contra hc
          have : (n : Int) * q ≤ n * (-2) := mul_le_mul_of_nonneg_left (by omega) (by omega)
          omega
        have q2 : q < 2 := by
          by_contra hc
          have : (n : Int) * 2 ≤ n * q := mul_le_mul_of_nonneg_left (by omega) (by omega)
          omega
        obtain rfl | rfl | rfl : q = -1 ∨ q = 0 ∨ q = 1 := by omega
        all_goals omega
      · rintro (h | h | h)
        · rw [show (J : Int) - ((p / 2 : Nat) : Int) = j + n * (-1) by omega, Int.add_mul_emod_self_left,
            Int.emod_eq_of_lt (by omega) (by omega)]
        · rw [show (J : Int) - ((p / 2 : Nat) : Int) = j by omega, Int.emod_eq_of_lt (by omega) (by omega)]
        · rw [show (J : Int) - ((p / 2 : Nat) : Int) = j + n * 1 by omega, Int.add_mul_emod_self_left,
            Int.emod_eq_of_lt (by omega) (by omega)]
    simp only [key]
    split_ifs <;> first | omega | simp
  rw [collocation, Finset.sum_congr rfl h1, Finset.sum_add_distrib, Finset.sum_add_distrib,
    sum_single_int (F := fun J => atCentre p ((i : Int) + (p / 2 : Nat) - J)) (fun h => atCentre_zero hp (by omega)),
    sum_single_int (F := fun J => atCentre p ((i : Int) + (p / 2 : Nat) - J)) (fun h => atCentre_zero hp (by omega)),
    sum_single_int (F := fun J => atCentre p ((i : Int) + (p / 2 : Nat) - J)) (fun h => atCentre_zero hp (by omega))]
  congr 1
  · congr 1
    · congr 1; ring
    · congr 1; ring
  · congr 1; ring

/-- Without periodicity the unknowns are the coefficients. -/
theorem collocation_open {R : Nat → Nat → K} {N i j : Nat} (hj : j < N) :
    collocation R N N 0 i j = R i j := by
  rw [collocation, Finset.sum_eq_single j]
  · rw [if_pos (by rw [Int.sub_zero, Int.emod_eq_of_lt (by omega) (by omega)])]
  · intro J hJ h
    have := Finset.mem_range.1 hJ
    rw [if_neg (by rw [Int.sub_zero, Int.emod_eq_of_lt (by omega) (by omega)]; omega)]
  · intro h
    exact absurd (Finset.mem_range.2 hj) h

variable [FloorRing K] {bs : BSpl K} {per : Bool} {t : Nat → K}

theorem uniform_lt (h : bs.Is per p n (uniformKnot a b n p)) : a < b := by
  have := h.ends
  rwa [uniformKnot_first, uniformKnot_last h.cells] at this

/-- The points of the main block are the centres of the supports of their B-splines. -/
def Centred (a b : K) (per : Bool) (p n : Nat) (lower upper : Closure) (N : Nat) (X : Nat → K) : Prop :=
  if per then ∀ k, k < N → X k = supportCentre a b n p (k + p / 2)
  else ∀ k, k < N → edgeRows lower p ≤ edgeEquations lower p + k →
    edgeEquations lower p + k + edgeRows upper p < n + p → X k = supportCentre a b n p (edgeEquations lower p + k)

/-- The entries of the matrix that are stored once are those of the main block. -/
theorem builder_main (h : bs.Is per p n t) (hu : bs.isUniform = true) {L : Lapack K} {σ : Sched}
    {lower upper : Closure} {s N : Nat} {coord : Elem Unit → Res K} {X : Nat → K} (hX : PointsIn t p n s N coord X)
    {B : Builder K} (hB : Builder.mk' L σ bs lower upper (seg () s (s + N)) coord = .ok B)
    (hoff : 0 ≤ B.offset ∧ B.offset ≤ p) (hper : per = false) (x y : Nat × Nat) (hxy : B.matrix.Same x y) :
    x = y ∨ (edgeRows lower p ≤ x.1 ∧ x.1 + edgeRows upper p < n + p ∧ edgeRows lower p ≤ x.2 ∧
      x.2 + edgeRows upper p < n + p) := by
  have hxs := hX.small
  have hsm := h.small
  have hp := h.pos
  obtain ⟨hf, -, -, -, -, -, -, hN, -, -⟩ := builder_inv h hxs hB
  have hB' := hB
  rw [Builder.mk'] at hB'
  obtain ⟨-, -, hB'⟩ := Res.bind_eq_ok.1 hB'
  obtain ⟨b, -, hB'⟩ := Res.bind_eq_ok.1 hB'
  obtain ⟨a, -, hB'⟩ := Res.bind_eq_ok.1 hB'
  obtain ⟨nc, -, hB'⟩ := Res.bind_eq_ok.1 hB'
  obtain ⟨-, -, hB'⟩ := Res.bind_eq_ok.1 hB'
  obtain ⟨off, -, hB'⟩ := Res.bind_eq_ok.1 hB'
  obtain ⟨m, em, hB'⟩ := Res.bind_eq_ok.1 hB'
  obtain ⟨m', em', hB'⟩ := Res.bind_eq_ok.1 hB'
  obtain ⟨S, -, hB'⟩ := Res.bind_eq_ok.1 hB'
  obtain rfl := Res.ok.inj hB'
  dsimp only at *
  have hbl : ∀ c : Closure, c.blockSize true p (c.equations p) = edgeRows c p := by
    intro c
    cases c <;> simp only [Closure.blockSize, Closure.equations, edgeRows] <;> first | rfl | omega
  rw [allocateMatrix, h.nbasis, h.periodic, hper, hu, h.degree, Res.ok_bind] at em
  simp only [if_true, Bool.false_eq_true, if_false] at em
  rw [hbl, hbl, sizeToInt_ofNat (by omega)] at em
  obtain ⟨hfr, hsm'⟩ := makeBlocks_ok (n := ((n + p : Nat) : Int)) (by omega) (by omega) (by omega) (by omega) (by omega)
    (by omega) (by omega) em
  rw [Int.toNat_natCast] at hfr
  rw [buildMatrix_same h hf hX (by rw [hper]; rfl) (by rw [hN, hper]; rfl) hoff.1 (by omega) _ hfr em'] at hxy
  rcases hsm' x y hxy with e | ⟨-, -, h1, h2, h3, h4⟩
  · exact .inl e
  · exact .inr ⟨by omega, by omega, by omega, by omega⟩

/-- The shift is half of the degree. -/
theorem centred_offset (h : bs.Is true p n (uniformKnot a b n p)) {coord : Elem Unit → Res K} {X : Nat → K}
    (hX : PointsIn (uniformKnot a b n p) p n 0 n coord X) (hc : ∀ k, k < n → X k = supportCentre a b n p (k + p / 2))
    (hpn : p < n) : computeOffset bs (seg () 0 (0 + n)) coord = .ok ((p / 2 : Nat) : Int) := by
  have hp := h.pos
  have hn := h.cells
  have hab := uniform_lt h
  have hn' : (0 : K) < n := by exact_mod_cast hn
  have h0 : 0 < (b - a) / (n : K) := div_pos (sub_pos.2 hab) hn'
  have hxp : X p = uniformKnot a b n p (p + p) + (if p % 2 = 0 then 1 / 2 else 0) * ((b - a) / n) := by
    rw [hc p (by omega), supportCentre_half, uniformKnot]
    push_cast
    ring
  have hlt : uniformKnot a b n p (p + p) ≤ X p ∧ X p < uniformKnot a b n p (p + p + 1) := by
    rw [hxp, uniformKnot_step (p + p) 1]
    push_cast
    split_ifs <;> constructor <;> linarith
  have hb : X p < uniformKnot a b n p (p + n) :=
    lt_of_lt_of_le hlt.2 ((uniformKnot_strictMono hab hn).monotone (by omega))
  have hcell : InCell (uniformKnot a b n p) (uniformKnot a b n p (p + n)) (X p) (p + p) := by
    rw [InCell, if_pos hb]
    exact hlt
  rw [C41_offset h hX hpn hcell, if_neg]
  · congr 1
    omega
  · rintro ⟨-, hle⟩
    rw [hc p hpn, bspline_centre hp hab hn, bspline_centre hp hab hn] at hle
    have h1 := cardinal_step (K := K) (p - 1) ((p : Int) + 1) (by omega) (by omega)
    refine absurd hle (not_le.2 ?_)
    rw [atCentre, atCentre]
    refine lt_of_eq_of_lt ?_ (h1.trans_eq ?_)
    · congr 1; push_cast; ring
    · congr 1; push_cast; ring

/-- The entries of the matrix of a periodic dimension. -/
theorem centred_periodic (h : bs.Is true p n (uniformKnot a b n p)) {X : Nat → K}
    (hc : ∀ k, k < n → X k = supportCentre a b n p (k + p / 2)) (hpn : p < n) (dx : K) {i j : Nat} (hi : i < n)
    (hj : j < n) :
    collocation (condition (uniformKnot a b n p) p n 0 n X dx) (n + p) n ((p / 2 : Nat) : Int) i j =
      atCentre p ((i : Int) - j + n) + atCentre p ((i : Int) - j) + atCentre p ((i : Int) - j - n) := by
  refine collocation_periodic h.pos hpn (fun i J hi _ => ?_) hi hj
  rw [condition, if_neg (by omega), if_pos (by omega), Nat.sub_zero, hc i hi, bspline_centre h.pos (uniform_lt h) h.cells]
  congr 1

/-- The entries of the rows of the main block, without periodicity. -/
theorem centred_open (h : bs.Is false p n (uniformKnot a b n p)) {lower upper : Closure} (hf : Fits false lower upper)
    {N : Nat} {X : Nat → K} (hN : edgeEquations lower p + N + edgeEquations upper p = n + p)
    (hc : Centred a b false p n lower upper N X) (dx : K) {i j : Nat} (h1 : edgeRows lower p ≤ i)
    (h2 : i + edgeRows upper p < n + p) (hj : j < n + p) :
    collocation (condition (uniformKnot a b n p) p n (edgeEquations lower p) N X dx) (n + p) (n + p) 0 i j =
      atCentre p ((i : Int) - j) := by
  have hedge : ∀ c : Closure, c ≠ .periodic → edgeEquations c p ≤ edgeRows c p := by
    intro c hc
    cases c <;> simp_all [edgeEquations, edgeRows]
  have e1 := hedge lower hf.1
  have e2 := hedge upper hf.2
  rw [Centred, if_neg (by simp)] at hc
  rw [collocation_open hj, condition, if_neg (by omega), if_pos (by omega), hc _ (by omega) (by omega) (by omega),
    show edgeEquations lower p + (i - edgeEquations lower p) = i by omega, bspline_centre h.pos (uniform_lt h) h.cells]

/-- Uniform B-splines and centred points: the shift is half of the degree, and the entries that are stored
once are equal. -/
theorem C41_symmetric (h : bs.Is per p n (uniformKnot a b n p)) {L : Lapack K} {σ : Sched}
    {lower upper : Closure} {s N : Nat} {coord : Elem Unit → Res K} {X : Nat → K}
    (hX : PointsIn (uniformKnot a b n p) p n s N coord X) (hc : Centred a b per p n lower upper N X) {B : Builder K}
    (hB : Builder.mk' L σ bs lower upper (seg () s (s + N)) coord = .ok B) (hper : per = true → p < n ∧ s = 0) (dx : K)
    {nb : Nat} (hnb : nb = if per then n else n + p) :
    B.offset = (if per then p / 2 else 0 : Nat) ∧
    (bs.isUniform = true → ∀ i j, i < nb → j < nb → B.matrix.Same (i, j) (j, i) →
      collocation (condition (uniformKnot a b n p) p n (edgeEquations lower p) N X dx) (n + p) nb B.offset i j =
      collocation (condition (uniformKnot a b n p) p n (edgeEquations lower p) N X dx) (n + p) nb B.offset j i) := by
  have hp := h.pos
  have hn := h.cells
  have hxs := hX.small
  obtain ⟨hf, -, -, -, -, -, eo, hN, -, -⟩ := builder_inv h hxs hB
  rw [equations_eq, equations_eq] at hN
  cases per
  · simp only [Bool.false_eq_true, if_false] at hN hnb ⊢
    have e0 : B.offset = ((0 : Nat) : Int) := by
      rw [computeOffset, h.periodic] at eo
      exact (Res.ok.inj eo).symm
    refine ⟨e0, fun hu i j hi hj hs => ?_⟩
    have := builder_main h hu hX hB (by rw [e0]; omega) rfl _ _ hs
    by_cases hij : i = j
    · subst hij; rfl
    rcases this with e | ⟨h1, h2, h3, h4⟩
    · exact absurd (Prod.mk.inj e).1 hij
    rw [e0, hnb, Nat.cast_zero, centred_open h hf hN hc dx h1 h2 (by omega), centred_open h hf hN hc dx h3 h4 (by omega),
      ← atCentre_neg hp, neg_sub]
  · rw [Centred, if_pos rfl] at hc
    simp only [if_true] at hN hnb ⊢
    obtain ⟨hpn, rfl⟩ := hper rfl
    rw [Fits, if_pos rfl] at hf
    obtain ⟨rfl, rfl⟩ := hf
    simp only [edgeEquations] at hN ⊢
    obtain rfl : N = n := by omega
    have e0 : B.offset = ((p / 2 : Nat) : Int) := Res.ok.inj (eo.symm.trans (centred_offset h hX hc hpn))
    refine ⟨e0, fun _ i j hi hj _ => ?_⟩
    rw [e0, hnb, centred_periodic h hc hpn dx (by omega) (by omega), centred_periodic h hc hpn dx (by omega) (by omega),
      ← atCentre_neg hp ((i : Int) - j + N),
      ← atCentre_neg hp ((i : Int) - j), ← atCentre_neg hp ((i : Int) - j - N),
      show -((i : Int) - j + N) = (j : Int) - i - N by ring, show -((i : Int) - j - N) = (j : Int) - i + N by ring, neg_sub]
    ring

/-! ## Greville points -/

/-- The discrete space that `GrevilleInterpolationPoints` builds for uniform B-splines: uniform, or not when
there are additional points at an edge or when the user asks for it. -/
def GrevilleCoord (u : UBS K) (lower upper : Closure) (coord : Elem Unit → Res K) : Prop :=
  if u.grevilleIsUniform lower upper then
    (∃ s, u.grevilleUniform = .ok s ∧ coord = s.coordinate) ∨ ∃ s, u.grevilleGrid lower upper = .ok s ∧ coord = s.coordinate
  else ∃ s, u.grevilleMixed lower upper = .ok s ∧ coord = s.coordinate

theorem coordinate_of_mk {l : List K} {s : NonUniform Unit K} (e : NonUniform.mk' () l = .ok s) {k : Nat}
    (hk : k < l.length) (hk' : k < 2 ^ 63) : s.coordinate (el () k) = .ok l[k] := by
  rw [NonUniform.mk'] at e
  split_ifs at e
  rw [← Res.ok.inj e]
  exact nu_coordinate_ok () l hk' hk

/-- Out of the edges, the additional points do not matter. -/
theorem mixed_centre (hp : 0 < p) (hn : 0 < n) {lower upper : Closure} (hf : Fits false lower upper) {k : Nat}
    (hk : k < unknowns false p n lower upper) (h1 : edgeRows lower p ≤ edgeEquations lower p + k)
    (h2 : edgeEquations lower p + k + edgeRows upper p < n + p) :
    (mixedPoint p n lower upper k : K) =
      (if p % 2 = 0 then 1 / 2 else 0 : K) + (edgeEquations lower p : K) + (k : K) - ((p / 2 : Nat) : K) := by
  have hadd := unknowns_add (p := p) (n := n) hf
  simp only [Bool.false_eq_true, if_false] at hadd
  have hdef : ∀ c : Closure, c ≠ .periodic →
      c = .greville ∧ edgeEquations c p = 0 ∧ edgeRows c p = p - 1 ∨
      c ≠ .greville ∧ edgeEquations c p = p / 2 ∧ edgeRows c p = p / 2 := by
    intro c hc; cases c <;> simp_all [edgeEquations, edgeRows]
  -- the low part
  have hlow : (if upper = .greville then p / 2 < unknowns false p n lower upper - 1 - k else
      k ≠ unknowns false p n lower upper - 1) → (mixedPoint p n lower upper k : K) =
      (if p % 2 = 0 then 1 / 2 else 0 : K) + (edgeEquations lower p : K) + (k : K) - ((p / 2 : Nat) : K) := by
    intro hup
    rcases hdef lower hf.1 with ⟨g, e1, e2⟩ | ⟨g, e1, e2⟩
    · rw [e1, e2, Nat.zero_add] at h1
      by_cases c : p / 2 + 1 ≤ k
      · rw [mixed_mid hup (by rw [if_pos g]; exact c), if_pos g, e1,
          show k - (p / 2 + 1) + 1 = k - p / 2 by omega, Nat.cast_sub (by omega)]
        push_cast
        ring
      · rw [mixed_low hup (by rw [if_pos g]; omega), if_pos g, e1, edgePoint]
        obtain ⟨rfl, rfl⟩ | ⟨rfl, rfl⟩ : (p = 1 ∧ k = 0) ∨ (p = 2 ∧ k = 1) := by omega
        · simp
        · norm_num
    · by_cases c : 1 ≤ k
      · rw [mixed_mid hup (by rw [if_neg g]; exact c), if_neg g, e1, Nat.sub_add_cancel c]
        ring
      · obtain rfl : k = 0 := by omega
        rw [mixed_low hup (by rw [if_neg g]; omega), if_neg g, e1]
        push_cast
        ring
  rcases hdef upper hf.2 with ⟨g, e1, e2⟩ | ⟨g, e1, e2⟩
  · rw [e1] at hadd
    rw [e2] at h2
    by_cases c : unknowns false p n lower upper - 1 - k ≤ p / 2
    · rw [mixed_upper g c, edgePoint]
      have e : edgeEquations lower p + k = n := by omega
      have e' : (edgeEquations lower p : K) + (k : K) = n := by exact_mod_cast e
      rw [add_assoc, e']
      obtain ⟨rfl, h⟩ | ⟨rfl, h⟩ : (p = 1 ∧ unknowns false p n lower upper - 1 - k = 0) ∨
          (p = 2 ∧ unknowns false p n lower upper - 1 - k = 1) := by omega
      · rw [h]; simp
      · rw [h]; norm_num; ring
    · exact hlow (by rw [if_pos g]; omega)
  · by_cases c : k = unknowns false p n lower upper - 1
    · rw [mixed_last g c]
      have e : edgeEquations lower p + k = n - 1 + p % 2 + p / 2 := by omega
      have e' : (edgeEquations lower p : K) + (k : K) = ((n - 1 + p % 2 : Nat) : K) + ((p / 2 : Nat) : K) := by
        exact_mod_cast e
      rw [add_assoc, e']
      ring
    · exact hlow (by rw [if_neg g]; exact c)

/-- The Greville points are centred, and in the domain. -/
theorem greville_centred (hp : 0 < p) (hab : a < b) (hn : 0 < n) (hs : n + 1 + 3 * p < 2 ^ 31) {lower upper : Closure}
    (hf : Fits per lower upper) {coord : Elem Unit → Res K} (hg : GrevilleCoord (ubs p per a b n) lower upper coord)
    (hmix : (ubs p per a b n).grevilleIsUniform lower upper = false → p ≤ 8 ∧ (p ≤ 3 ∨ 3 ≤ n)) :
    ∃ X, PointsIn (uniformKnot a b n p) p n 0 (unknowns per p n lower upper) coord X ∧
      Centred a b per p n lower upper (unknowns per p n lower upper) X := by
  have hadd := unknowns_add (p := p) (n := n) hf
  have hle : unknowns per p n lower upper ≤ n + p := by split_ifs at hadd <;> omega
  have hn' : (0 : K) < n := by exact_mod_cast hn
  have h0 : 0 < (b - a) / (n : K) := div_pos (sub_pos.2 hab) hn'
  rw [GrevilleCoord] at hg
  by_cases hu : (ubs p per a b n).grevilleIsUniform lower upper = true
  · rw [if_pos hu] at hg
    have hu' := (C37_kind lower upper).1 hu
    have hbd := unknowns_uniform (n := n) hf hu' hn
    refine ⟨fun k => a + ((if p % 2 = 0 then 1 / 2 else 0 : K) + (k : K)) * ((b - a) / n),
      ⟨by omega, fun k hk => ?_, fun k hk => ?_, fun k hk => ?_⟩, ?_⟩
    · rw [Nat.zero_add]
      rcases hg with ⟨s, e, rfl⟩ | ⟨s, e, rfl⟩
      · rw [ubs_grevilleUniform hab hn (by omega)] at e
        rw [← Res.ok.inj e, uniform_coordinate _ _ (by omega)]
        congr 1; ring
      · rw [ubs_grevilleGrid hn (by omega) hf] at e
        rw [coordinate_of_mk e (by simpa using hk) (by omega)]
        simp
    · rw [uniformKnot_first]
      exact (wo_bounds hab hn (hbd k hk)).1
    · rw [uniformKnot_last hn]
      exact (wo_bounds hab hn (hbd k hk)).2
    · rw [Centred]
      by_cases c : per = true
      · rw [if_pos c]
        exact fun k _ => (supportCentre_half k).symm
      · rw [if_neg c]
        intro k hk _ _
        have h1 := (hu'.resolve_left c).1
        rw [show edgeEquations lower p = p / 2 by cases lower <;> simp_all [edgeEquations], add_comm (p / 2),
          supportCentre_half]
  · rw [if_neg hu] at hg
    obtain ⟨hp8, hpn⟩ := hmix (by simpa using hu)
    obtain rfl : per = false := by
      cases per
      · rfl
      · exact absurd ((C37_kind lower upper).2 (Or.inl rfl)) hu
    obtain ⟨s, e, rfl⟩ := hg
    rw [grevilleMixed_ok hp hab hn (by omega) hf] at e
    have hstep := strict_of_step (x := fun k => (mixedPoint p n lower upper k : K))
      (N := unknowns false p n lower upper) fun k hk => mixed_step hp hp8 hn hpn hf hk
    have hfirst : ∀ k, k < unknowns false p n lower upper → (0 : K) ≤ mixedPoint p n lower upper k := by
      intro k hk
      rcases Nat.eq_zero_or_pos k with rfl | hk0
      · exact mixed_first hp hn hpn hf
      · exact (mixed_first hp hn hpn hf).trans (hstep 0 k hk0 hk).le
    have hlast : ∀ k, k < unknowns false p n lower upper → (mixedPoint p n lower upper k : K) ≤ n := by
      intro k hk
      rcases Nat.lt_or_ge k (unknowns false p n lower upper - 1) with h | h
      · exact (hstep k _ h (by omega)).le.trans (mixed_end hn)
      · rw [show k = unknowns false p n lower upper - 1 by omega]; exact mixed_end hn
    refine ⟨fun k => a + mixedPoint p n lower upper k * ((b - a) / n),
      ⟨by omega, fun k hk => ?_, fun k hk => ?_, fun k hk => ?_⟩, ?_⟩
    · rw [Nat.zero_add, coordinate_of_mk e (by simpa using hk) (by omega)]
      simp
    · rw [uniformKnot_first]
      have := mul_nonneg (hfirst k hk) h0.le
      linarith
    · rw [uniformKnot_last hn]
      have := mul_le_mul_of_nonneg_right (hlast k hk) h0.le
      have e : (n : K) * ((b - a) / (n : K)) = b - a := by field_simp
      linarith
    · rw [Centred, if_neg (by simp)]
      intro k hk h1 h2
      rw [mixed_centre hp hn hf hk h1 h2, supportCentre_eq, uniformKnot]
      have := supportCentre_half (a := a) (b := b) (n := n) (p := p) 0
      rw [supportCentre_eq, uniformKnot] at this
      push_cast at this ⊢
      linear_combination -this

/-- Uniform B-splines with the points computed by `GrevilleInterpolationPoints`: when the builder is
constructed, it interpolates any data up to the tolerances of the code, with any closures.  No hypothesis on
the matrix is left.  Missing: `n ≤ p` cells in a periodic dimension (`C41_few_cells`: false), and that the
builder is constructed (proved for some degrees in `C41e`); `hmix`: for larger degrees or fewer cells the
points are not increasing (`C37_uniform_greville_fails`). -/
theorem C41_greville_partial (hp : 0 < p) (hab : a < b) (hn : 0 < n) (hs : n + 1 + 3 * p < 2 ^ 31)
    {lower upper : Closure} (hf : Fits per lower upper) {u : UBS K} (eu : UBS.mk' p per a b (BitVec.ofNat 64 n) = .ok u)
    {D : Dom Unit} (hD : u.grevilleDomain lower upper = .ok D) {coord : Elem Unit → Res K}
    (hg : GrevilleCoord u lower upper coord)
    (hmix : u.grevilleIsUniform lower upper = false → p ≤ 8 ∧ (p ≤ 3 ∨ 3 ≤ n)) (hper : per = true → p < n)
    {L : Lapack K} (hL : L.Exact) {σ : Sched} (hσ : σ.Valid) {B : Builder K}
    (hB : Builder.mk' L σ (.uniform u) lower upper D coord = .ok B) :
    ∃ X τ, PointsIn (uniformKnot a b n p) p n 0 (unknowns per p n lower upper) coord X ∧
      ∀ (σ' : Sched) (_ : σ'.Valid) (junk : Nat → Nat → K) (spline vals : Mat K) (dmin dmax : Option (U64 × Mat K)),
      spline.rows = n + p → vals.rows = unknowns per p n lower upper → vals.cols = spline.cols →
      GivenDerivs lower p spline.cols dmin → GivenDerivs upper p spline.cols dmax →
      ∃ spline', B.apply L σ' junk spline vals dmin dmax = .ok spline' ∧ spline'.rows = n + p ∧
        spline'.cols = spline.cols ∧ ∀ j, j < spline.cols →
          InterpolatesUpTo (uniformKnot a b n p) p n (unknowns per p n lower upper) X lower upper (fun k => vals.val k j)
            (fun i => derivAt dmin i j) (fun i => derivAt dmax i j) (fun J => spline'.val J j) ((b - a) / n) τ ∧
          (per = true → ∀ i, i < p → spline'.val (n + i) j = spline'.val i j) := by
  obtain ⟨u', eu', h⟩ := BSpl.is_uniform hp per hab hn hs
  obtain rfl := Res.ok.inj (eu'.symm.trans eu)
  obtain rfl := ubs_of_mk hp hab hn (by omega) eu
  rw [ubs_grevilleDomain hf] at hD
  obtain rfl := Res.ok.inj hD
  obtain ⟨X, hX, hc⟩ := greville_centred hp hab hn hs hf hg hmix
  rw [← Nat.zero_add (unknowns per p n lower upper)] at hB
  have hsym := C41_symmetric h hX hc hB (fun hpe => ⟨hper hpe, rfl⟩)
    ((uniformKnot a b n p (p + n) - uniformKnot a b n p p) / n) rfl
  have hoff : 0 ≤ B.offset ∧ B.offset ≤ p := by rw [hsym.1]; split_ifs <;> omega
  obtain ⟨τ, hτ⟩ := C41_coupling h hL hσ hX hB hoff hper
  refine ⟨X, τ, hX, fun σ' hσ' junk spline vals dmin dmax h1 h2 h3 h4 h5 => ?_⟩
  have := C41_approximates_partial h hL hσ hX hB hoff hper rfl rfl hτ hsym.2 hσ' junk h1 h2 h3 h4 h5
  rw [uniformKnot_first, uniformKnot_last hn] at this
  exact this

end DDC.Props
