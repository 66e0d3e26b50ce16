import Verif.Props.C41e
import Verif.Lemmas.SplineEnds

/-!
# C41, continued: well-posed problems, uniform B-splines

The interpolation problem of the builder is well posed under the conditions of Schoenberg and Whitney
(`C41_well_posed`), for any degree, closures and simple knots.  The Greville points of uniform B-splines
satisfy them: the constructor always succeeds on a bounded interval (`C41_open_partial`).
-/

set_option linter.unusedSectionVars false

namespace DDC.Props

open One Dom LinProb Spec Builder

variable {K : Type} [Field K] [LinearOrder K] [IsStrictOrderedRing K] [FloorRing K]

/-! ## Well-posed problems -/

section

variable {bs : BSpl K} {p n : Nat} {t : Nat → K}

/-- The matrix of an interpolation problem that satisfies the conditions of Schoenberg and Whitney is regular,
for any degree, any derivatives at the ends and any simple knots inside. -/
theorem C41_well_posed (h : bs.Is false p n t) (hst : ∀ c, p ≤ c → c < p + n → t c < t (c + 1)) {lo hi N : Nat}
    (hlo : lo ≤ p / 2) (hhi : hi ≤ p / 2) (hN : lo + N + hi = n + p) {X : Nat → K}
    (hX : SchoenbergWhitney t p n lo hi N X) {dx : K} (hdx : dx ≠ 0) :
    Regular (n + p) (collocation (condition t p n lo N X dx) (n + p) (n + p) 0) := by
  intro x hx
  refine hX.unique h.mono h.pos h.cells hst hlo hhi hN hdx fun i hi => ?_
  have := hx i hi
  simp only [Bool.false_eq_true, if_false] at this
  rw [← this]
  exact Finset.sum_congr rfl fun J hJ => by rw [collocation_open (Finset.mem_range.1 hJ)]

end

variable {a b : K} {p n : Nat}

/-- The values of the B-splines at a point given in cells from the lower end. -/
theorem bspline_at (hp : 0 < p) (hab : a < b) (hn : 0 < n) (z : K) (θ : K) (J : Nat) :
    bspline (uniformKnot a b n p) z p J (a + θ * ((b - a) / n)) = cardinal (p - 1) (θ + p - J) := by
  obtain ⟨q, rfl⟩ : ∃ q, p = q + 1 := ⟨p - 1, by omega⟩
  have hn' : (0 : K) < n := by exact_mod_cast hn
  have h0 : 0 < (b - a) / (n : K) := div_pos (sub_pos.2 hab) hn'
  rw [bspline_cardinal h0 (fun k j => uniformKnot_step k j), uniformKnot, Nat.add_sub_cancel]
  congr 1
  rw [div_eq_iff h0.ne']
  push_cast
  ring

/-- A B-spline is positive inside its support. -/
theorem cardinal_pos (q : Nat) {x : K} (h0 : 0 < x) (h1 : x < (q : K) + 2) : 0 < cardinal q x := by
  induction q generalizing x with
  | zero =>
    rw [cardinal]
    norm_num at h1
    exact lt_max_of_lt_right (lt_min h0 (by linarith))
  | succ q ih =>
    have hq : (0 : K) ≤ q := Nat.cast_nonneg q
    push_cast at h1
    rw [cardinal]
    refine div_pos ?_ (by linarith)
    rcases lt_or_ge x ((q : K) + 2) with c | c
    · exact add_pos_of_pos_of_nonneg (mul_pos h0 (ih h0 c)) (mul_nonneg (by linarith) (cardinal_nonneg _ _))
    · exact add_pos_of_nonneg_of_pos (mul_nonneg h0.le (cardinal_nonneg _ _))
        (mul_pos (by linarith) (ih (by linarith) (by linarith)))

/-! ## Greville points -/

/-- A closed cell holds at most `m` points when `m` consecutive steps are more than a cell. -/
theorem not_overfull_of_steps (hab : a < b) (hn : 0 < n) {N : Nat} {X : Nat → K} (hinc : PointsIncrease N X)
    (hX : ∀ k, k + (p + 1) < N → X k + (b - a) / n < X (k + (p + 1))) : ¬Overfull (uniformKnot a b n p) p n N X := by
  rintro ⟨k, hk, hc⟩
  by_cases hex : ∃ i, i < N ∧ uniformKnot a b n p (p + k) ≤ X i ∧ X i ≤ uniformKnot a b n p (p + k + 1)
  · classical
    have hi := Nat.find_spec hex
    have hmin := @Nat.find_min _ _ hex
    set i := Nat.find hex with hidef
    have := cellCount_le (t := uniformKnot a b n p) (p := p) (N := N) (X := X) (k := k) (a := i) (b := i + (p + 1))
      fun j hj h1 h2 => ⟨by
        by_contra c
        exact hmin (show j < i by omega) ⟨hj, h1, h2⟩, by
        by_contra c
        have g1 := hX i (by omega)
        have g2 : X (i + (p + 1)) ≤ X j := by
          rcases Nat.eq_or_lt_of_le (show i + (p + 1) ≤ j by omega) with e | e
          · rw [e]
          · exact (hinc _ _ e hj).le
        have g3 := hi.2.1
        rw [uniformKnot] at h2 g3
        push_cast at h2 g3
        linarith⟩
    omega
  · have := cellCount_le (t := uniformKnot a b n p) (p := p) (N := N) (X := X) (k := k) (a := 0) (b := 0)
      fun j hj h1 h2 => absurd ⟨j, hj, h1, h2⟩ hex
    omega

variable {per : Bool} {lower upper : Closure}

/-- Distance of an additional point to its regular position. -/
theorem edgePoint_near (hp : 0 < p) {i : Nat} (hi : i ≤ p) :
    0 ≤ (edgePoint p i : K) - i + ((p : K) - 1) / 2 ∧ (edgePoint p i : K) - i ≤ 0 := by
  have hp' : (0 : K) < p := by exact_mod_cast hp
  obtain ⟨m, rfl⟩ := Nat.exists_eq_add_of_le hi
  have hm : (0 : K) ≤ (m : K) * ((m : K) - 1) := by
    rcases Nat.eq_zero_or_pos m with rfl | c
    · simp
    · have : (1 : K) ≤ m := by exact_mod_cast c
      exact mul_nonneg (by linarith) (by linarith)
  have h1 : (edgePoint (i + m) i : K) - i + (((i + m : Nat) : K) - 1) / 2 = (m : K) * ((m : K) - 1) / (2 * ((i + m : Nat) : K)) := by
    rw [edgePoint]
    field_simp
    push_cast
    ring
  have h2 : (edgePoint (i + m) i : K) - i = -((i : K) * (i + 2 * m - 1)) / (2 * ((i + m : Nat) : K)) := by
    rw [edgePoint]
    field_simp
    push_cast
    ring
  rw [h1, h2]
  refine ⟨div_nonneg hm (by linarith), div_nonpos_of_nonpos_of_nonneg ?_ (by linarith)⟩
  rcases Nat.eq_zero_or_pos i with rfl | c
  · simp
  · have : (1 : K) ≤ i := by exact_mod_cast c
    have : (0 : K) ≤ m := Nat.cast_nonneg m
    exact neg_nonpos.2 (mul_nonneg (by linarith) (by linarith))

/-- The regular positions are half a degree away from the numbers of the B-splines. -/
theorem half_shift (p : Nat) : ((p / 2 : Nat) : K) - (if p % 2 = 0 then 1 / 2 else 0) = ((p : K) - 1) / 2 := by
  have h : (p : K) = 2 * ((p / 2 : Nat) : K) + ((p % 2 : Nat) : K) := by exact_mod_cast (Nat.div_add_mod p 2).symm
  rcases Nat.mod_two_eq_zero_or_one p with c | c
  · rw [if_pos c, h, c]; push_cast; ring
  · rw [if_neg (by omega), h, c]; push_cast; ring

/-- No point is more than `(p - 1) / 2` cells away from its regular position. -/
theorem mixed_near (hp : 0 < p) (hn : 0 < n) (hf : Fits false lower upper) {k : Nat}
    (hk : k < unknowns false p n lower upper) :
    |(mixedPoint p n lower upper k : K) - ((k : K) - ((if lower = .greville then p / 2 else 0 : Nat) : K) +
      (if p % 2 = 0 then 1 / 2 else 0))| ≤ ((p : K) - 1) / 2 := by
  have hp0 : (0 : K) ≤ ((p : K) - 1) / 2 := by
    have : (1 : K) ≤ p := by exact_mod_cast hp
    linarith
  have hN := unknowns_split (p := p) hf hn
  have hlow : (if upper = .greville then p / 2 < unknowns false p n lower upper - 1 - k else
      k ≠ unknowns false p n lower upper - 1) → |(mixedPoint p n lower upper k : K) -
      ((k : K) - ((if lower = .greville then p / 2 else 0 : Nat) : K) + (if p % 2 = 0 then 1 / 2 else 0))| ≤ ((p : K) - 1) / 2 := by
    intro hup
    by_cases c : (if lower = .greville then p / 2 + 1 else 1) ≤ k
    · rw [mixed_mid hup c]
      by_cases g : lower = .greville
      · rw [if_pos g] at c ⊢
        rw [if_pos g, Nat.cast_add, Nat.cast_sub c]
        push_cast
        rw [show ∀ s z : K, s + ((k : K) - (z + 1) + 1) - ((k : K) - z + s) = 0 from fun s z => by ring]
        simpa using hp0
      · rw [if_neg g] at c ⊢
        rw [if_neg g, Nat.sub_add_cancel c]
        push_cast
        rw [show ∀ s : K, s + (k : K) - ((k : K) - 0 + s) = 0 from fun s => by ring]
        simpa using hp0
    · rw [mixed_low hup (by omega)]
      by_cases g : lower = .greville
      · rw [if_pos g] at c ⊢
        rw [if_pos g]
        have h1 := edgePoint_near (K := K) hp (show k ≤ p by omega)
        have h2 := half_shift (K := K) p
        rw [abs_le]
        constructor <;> linarith
      · rw [if_neg g] at c ⊢
        rw [if_neg g]
        obtain rfl : k = 0 := by omega
        simpa using hp0
  by_cases g : upper = .greville
  · by_cases c : unknowns false p n lower upper - 1 - k ≤ p / 2
    · rw [mixed_upper g c]
      rw [if_pos g] at hN
      have e : unknowns false p n lower upper = (if lower = .greville then p / 2 else 0) + n + p % 2 + p / 2 := by
        rw [hN]; split_ifs <;> omega
      obtain ⟨i, hi⟩ : ∃ i, i = unknowns false p n lower upper - 1 - k := ⟨_, rfl⟩
      rw [← hi] at c ⊢
      have e2 : k + i + 1 = (if lower = .greville then p / 2 else 0) + n + p % 2 + p / 2 := by omega
      have e3 : (k : K) = ((if lower = .greville then p / 2 else 0 : Nat) : K) + n + ((p % 2 : Nat) : K) + ((p / 2 : Nat) : K)
          - i - 1 := by
        have : ((k + i + 1 : Nat) : K) = (((if lower = .greville then p / 2 else 0) + n + p % 2 + p / 2 : Nat) : K) := by
          rw [e2]
        rw [Nat.cast_add, Nat.cast_add, Nat.cast_add, Nat.cast_add, Nat.cast_add] at this
        rw [Nat.cast_one] at this
        linear_combination this
      rw [e3]
      generalize ((if lower = .greville then p / 2 else 0 : Nat) : K) = z
      have h1 := edgePoint_near (K := K) hp (show i ≤ p by omega)
      have h2 := half_shift (K := K) p
      have h3 : (p : K) = 2 * ((p / 2 : Nat) : K) + ((p % 2 : Nat) : K) := by exact_mod_cast (Nat.div_add_mod p 2).symm
      rw [abs_le]
      constructor <;> linarith
    · exact hlow (by rw [if_pos g]; omega)
  · by_cases c : k = unknowns false p n lower upper - 1
    · rw [mixed_last g c]
      rw [if_neg g] at hN
      have e : k = (if lower = .greville then p / 2 else 0) + (n - 1 + p % 2) := by
        rw [c, hN]; split_ifs <;> omega
      have e3 : (k : K) = ((if lower = .greville then p / 2 else 0 : Nat) : K) + ((n - 1 + p % 2 : Nat) : K) := by
        rw [← Nat.cast_add]; exact congrArg _ e
      rw [e3, show ∀ s z y : K, s + y - (z + y - z + s) = 0 from fun s z y => by ring]
      simpa using hp0
    · exact hlow (by rw [if_neg g]; exact c)

/-- The points with additional points at the edges. -/
theorem mixed_points (hp : 0 < p) (hab : a < b) (hn : 0 < n) (hs : n + 1 + 3 * p < 2 ^ 31)
    (hf : Fits false lower upper) (hu : (ubs p false a b n).grevilleIsUniform lower upper = false)
    {coord : Elem Unit → Res K} (hg : GrevilleCoord (ubs p false a b n) lower upper coord) {X : Nat → K}
    (hX : PointsIn (uniformKnot a b n p) p n 0 (unknowns false p n lower upper) coord X) {k : Nat}
    (hk : k < unknowns false p n lower upper) : X k = a + mixedPoint p n lower upper k * ((b - a) / n) := by
  have hadd := unknowns_add (p := p) (n := n) hf
  simp only [Bool.false_eq_true, if_false] at hadd
  rw [GrevilleCoord, if_neg (by rw [hu]; simp)] at hg
  obtain ⟨s, e, rfl⟩ := hg
  rw [grevilleMixed_ok hp hab hn (by omega) hf] at e
  have h1 := hX.coord k hk
  rw [Nat.zero_add, coordinate_of_mk e (by simpa using hk) (by omega)] at h1
  rw [← Res.ok.inj h1]
  simp

/-- The grid with additional points is accepted. -/
theorem mixed_accepted (hp : 0 < p) (hp8 : p ≤ 8) (hpn : p ≤ 3 ∨ 3 ≤ n) (hab : a < b) (hn : 0 < n) (hs : n + 1 + 3 * p < 2 ^ 31)
    (hf : Fits false lower upper) (h : (BSpl.uniform (ubs p false a b n)).Is false p n (uniformKnot a b n p))
    {coord : Elem Unit → Res K} {X : Nat → K}
    (hX : PointsIn (uniformKnot a b n p) p n 0 (unknowns false p n lower upper) coord X)
    (hXe : ∀ k, k < unknowns false p n lower upper → X k = a + mixedPoint p n lower upper k * ((b - a) / n)) :
    checkValidGrid (.uniform (ubs p false a b n)) lower upper (seg () 0 (0 + unknowns false p n lower upper)) coord =
      .ok () := by
  have hadd := unknowns_add (p := p) (n := n) hf
  simp only [Bool.false_eq_true, if_false] at hadd
  have hn' : (0 : K) < n := by exact_mod_cast hn
  have h0 : 0 < (b - a) / (n : K) := div_pos (sub_pos.2 hab) hn'
  have hstep := strict_of_step (x := fun k => (mixedPoint p n lower upper k : K))
    (N := unknowns false p n lower upper) fun k hk => mixed_step hp hp8 hn hpn hf hk
  have hinc : PointsIncrease (unknowns false p n lower upper) X := by
    intro i j hij hj
    rw [hXe i (by omega), hXe j hj]
    have := mul_lt_mul_of_pos_right (hstep i j hij hj) h0
    linarith
  refine C47_accepts h lower upper hX hinc (by simp only [Bool.false_eq_true, if_false]; rw [equations_eq, equations_eq]; omega)
    (not_overfull_of_steps hab hn hinc fun k hk => ?_)
  rw [hXe k (by omega), hXe _ hk]
  have h1 := (abs_le.1 (mixed_near (K := K) hp hn hf (show k < _ by omega))).2
  have h2 := (abs_le.1 (mixed_near (K := K) hp hn hf hk)).1
  have h3 : (mixedPoint p n lower upper k : K) + 1 < mixedPoint p n lower upper (k + (p + 1)) := by
    rw [Nat.cast_add, Nat.cast_add, Nat.cast_one] at h2
    linarith
  have := mul_lt_mul_of_pos_right h3 h0
  linarith

/-- Points close to their regular positions satisfy the conditions of Schoenberg and Whitney. -/
theorem near_wellPosed (hp : 0 < p) (hab : a < b) (hn : 0 < n) {lo hi N : Nat} {θ : Nat → K} {X : Nat → K}
    (hXe : ∀ k, k < N → X k = a + θ k * ((b - a) / n)) (hstep : ∀ i j, i < j → j < N → θ i < θ j)
    (h0 : ∀ k, k < N → 0 ≤ θ k) (h1 : ∀ k, k < N → θ k ≤ n)
    (hnear : ∀ k, k < N → |θ k - (((lo + k : Nat) : K) - ((p : K) - 1) / 2)| ≤ ((p : K) - 1) / 2) (hN : 0 < N)
    (hlow : 0 < lo → p % 2 = 0 → θ 0 ≠ 0) (hupp : 0 < hi → p % 2 = 0 → θ (N - 1) ≠ n) :
    SchoenbergWhitney (uniformKnot a b n p) p n lo hi N X := by
  have hn' : (0 : K) < n := by exact_mod_cast hn
  have hh : 0 < (b - a) / (n : K) := div_pos (sub_pos.2 hab) hn'
  have e : (n : K) * ((b - a) / (n : K)) = b - a := by field_simp
  refine ⟨fun i j hij hj => ?_, fun k hk => ?_, fun k hk => ?_, fun k hk => ?_, fun h h' => ?_, fun h h' => ?_⟩
  · rw [hXe i (by omega), hXe j hj]
    have := mul_lt_mul_of_pos_right (hstep i j hij hj) hh
    linarith
  · rw [uniformKnot_first, hXe k hk]
    have := mul_nonneg (h0 k hk) hh.le
    linarith
  · rw [uniformKnot_last hn, hXe k hk]
    have := mul_le_mul_of_nonneg_right (h1 k hk) hh.le
    linarith
  · rw [hXe k hk, bspline_at hp hab hn]
    have := abs_le.1 (hnear k hk)
    have hq : ((p - 1 : Nat) : K) = (p : K) - 1 := by rw [Nat.cast_sub hp]; simp
    exact (cardinal_pos _ (by linarith) (by rw [hq]; linarith)).ne'
  · rw [uniformKnot_first, hXe 0 hN]
    intro c
    exact mul_ne_zero (hlow h h') hh.ne' (by linarith)
  · rw [uniformKnot_last hn, hXe _ (by omega)]
    intro c
    refine hupp h h' (mul_right_cancel₀ hh.ne' ?_)
    linarith

/-- The Greville points satisfy the conditions of Schoenberg and Whitney. -/
theorem greville_wellPosed (hp : 0 < p) (hab : a < b) (hn : 0 < n) (hs : n + 1 + 3 * p < 2 ^ 31)
    (hf : Fits false lower upper) {coord : Elem Unit → Res K} (hg : GrevilleCoord (ubs p false a b n) lower upper coord)
    (hmix : (ubs p false a b n).grevilleIsUniform lower upper = false → p ≤ 8 ∧ (p ≤ 3 ∨ 3 ≤ n)) {X : Nat → K}
    (hX : PointsIn (uniformKnot a b n p) p n 0 (unknowns false p n lower upper) coord X)
    (hc : Centred a b false p n lower upper (unknowns false p n lower upper) X) (h0 : 0 < unknowns false p n lower upper) :
    SchoenbergWhitney (uniformKnot a b n p) p n (edgeEquations lower p) (edgeEquations upper p)
      (unknowns false p n lower upper) X := by
  have hadd := unknowns_add (p := p) (n := n) hf
  simp only [Bool.false_eq_true, if_false] at hadd
  have hp1 : (1 : K) ≤ p := by exact_mod_cast hp
  have hs2 := half_shift (K := K) p
  by_cases hu : (ubs p false a b n).grevilleIsUniform lower upper = true
  · have hu' := ((C37_kind lower upper).1 hu).resolve_left (by simp)
    have e1 : edgeEquations lower p = p / 2 ∧ edgeRows lower p = p / 2 := by
      have := hu'.1
      cases lower <;> simp_all [edgeEquations, edgeRows]
    have e2 : edgeEquations upper p = p / 2 ∧ edgeRows upper p = p / 2 := by
      have := hu'.2
      cases upper <;> simp_all [edgeEquations, edgeRows]
    have hbd := unknowns_uniform (n := n) hf (.inr hu') hn
    have hn' : (0 : K) < n := by exact_mod_cast hn
    have hN : unknowns false p n lower upper = n + p % 2 := by omega
    refine near_wellPosed hp hab hn (θ := fun k => (if p % 2 = 0 then 1 / 2 else 0 : K) + (k : K)) (fun k hk => ?_)
      (fun i j hij _ => by
        have : (i : K) < j := by exact_mod_cast hij
        linarith) (fun k _ => by
        have : (0 : K) ≤ k := Nat.cast_nonneg k
        split_ifs <;> linarith) (fun k hk => ?_) (fun k hk => ?_) h0 (fun _ h' => ?_) (fun _ h' => ?_)
    · rw [Centred, if_neg (by simp)] at hc
      rw [hc k hk (by omega) (by omega), e1.1, add_comm (p / 2), supportCentre_half]
    · rcases Nat.mod_two_eq_zero_or_one p with c | c
      · rw [if_pos c]
        have : ((k + 1 : Nat) : K) ≤ n := by exact_mod_cast (show k + 1 ≤ n by omega)
        push_cast at this
        linarith
      · rw [if_neg (by omega)]
        have : (k : K) ≤ n := by exact_mod_cast (show k ≤ n by omega)
        linarith
    · rw [e1.1, abs_le, Nat.cast_add]
      constructor <;> linarith
    · rw [if_pos h']; norm_num
    · rw [if_pos h', hN, h', Nat.add_zero, Nat.cast_sub hn]
      intro c
      push_cast at c
      linarith
  · have hu : (ubs p false a b n).grevilleIsUniform lower upper = false := by simpa using hu
    obtain ⟨hp8, hpn⟩ := hmix hu
    have hstep := strict_of_step (x := fun k => (mixedPoint p n lower upper k : K))
      (N := unknowns false p n lower upper) fun k hk => mixed_step hp hp8 hn hpn hf hk
    have hN := unknowns_split (p := p) hf hn
    have hlo : edgeEquations lower p = if lower = .greville then 0 else p / 2 := by
      have := hf.1
      cases lower <;> simp_all [edgeEquations]
    have hhi : edgeEquations upper p = if upper = .greville then 0 else p / 2 := by
      have := hf.2
      cases upper <;> simp_all [edgeEquations]
    refine near_wellPosed hp hab hn (θ := mixedPoint p n lower upper)
      (fun k hk => mixed_points hp hab hn hs hf hu hg hX hk) hstep (fun k hk => ?_) (fun k hk => ?_) (fun k hk => ?_) h0
      (fun h h' => ?_) (fun h h' => ?_)
    · rcases Nat.eq_zero_or_pos k with rfl | hk0
      · exact mixed_first hp hn hpn hf
      · exact (mixed_first hp hn hpn hf).trans (hstep 0 k hk0 hk).le
    · rcases Nat.lt_or_ge k (unknowns false p n lower upper - 1) with h | h
      · exact (hstep k _ h (by omega)).le.trans (mixed_end hn)
      · rw [show k = unknowns false p n lower upper - 1 by omega]; exact mixed_end hn
    · have := mixed_near (K := K) hp hn hf hk
      convert this using 3
      rw [hlo, ← hs2]
      split_ifs <;> push_cast <;> ring
    · have g : lower ≠ .greville := fun c => by rw [hlo, if_pos c] at h; omega
      rw [if_neg g] at hN
      by_cases g' : upper = .greville
      · rw [if_pos g'] at hN
        by_cases c : unknowns false p n lower upper - 1 - 0 ≤ p / 2
        · rw [mixed_upper g' c]
          obtain ⟨rfl, rfl⟩ : p = 2 ∧ n = 1 := by omega
          rw [show unknowns false 2 1 lower upper - 1 - 0 = 1 by omega, edgePoint]
          norm_num
        · rw [mixed_low (by rw [if_pos g']; omega) (by rw [if_neg g]; omega), if_neg g, if_pos h']
          norm_num
      · rw [if_neg g'] at hN
        by_cases c : 0 = unknowns false p n lower upper - 1
        · rw [mixed_last g' c, if_pos h']
          have : (0 : K) ≤ ((n - 1 + p % 2 : Nat) : K) := Nat.cast_nonneg _
          intro d
          linarith
        · rw [mixed_low (by rw [if_neg g']; exact c) (by rw [if_neg g]; omega), if_neg g, if_pos h']
          norm_num
    · have g : upper ≠ .greville := fun c => by rw [hhi, if_pos c] at h; omega
      rw [mixed_last g rfl, if_pos h', h', Nat.add_zero, Nat.cast_sub hn]
      intro c
      push_cast at c
      linarith

/-- Uniform B-splines of any degree on a bounded interval, with the points of
`GrevilleInterpolationPoints`, and any closures: the grid is accepted, the builder is constructed and
interpolates any data and any derivatives up to a tolerance, which is explicit up to degree 6 and depends on the
builder only.  There is no hypothesis on the matrix, on the grid or on the construction.  The tolerance comes
from the entries of size at most `10⁻¹⁴` that the block matrices drop.
Missing: user-given points.  `hmix` is for additional points at an edge: beyond degree 8, or with few cells,
the code builds them in the wrong order (`C37_uniform_greville_fails`, `C37_few_cells`).  `hroom` says that the main block
has its intended size: it holds for `n > p`. -/
theorem C41_open_partial (hp : 0 < p) (hab : a < b) (hn : 0 < n) (hs : n + 1 + 3 * p < 2 ^ 31)
    (hf : Fits false lower upper) {u : UBS K} (eu : UBS.mk' p false a b (BitVec.ofNat 64 n) = .ok u)
    {D : Dom Unit} (hD : u.grevilleDomain lower upper = .ok D) {coord : Elem Unit → Res K}
    (hg : GrevilleCoord u lower upper coord)
    (hmix : u.grevilleIsUniform lower upper = false → p ≤ 8 ∧ (p ≤ 3 ∨ 3 ≤ n))
    (hroom : (if p / 2 = 1 then 0 else p / 2) + edgeRows lower p + edgeRows upper p < n + p)
    {L : Lapack K} (hL : L.Exact) {σ : Sched} (hσ : σ.Valid) :
    ∃ B X τ, Builder.mk' L σ (.uniform u) lower upper D coord = .ok B ∧ (p ≤ 6 → τ = 46) ∧
      PointsIn (uniformKnot a b n p) p n 0 (unknowns false p n lower upper) coord X ∧
      ∀ (σ' : Sched) (_ : σ'.Valid) (junk : Nat → Nat → K) (spline vals : Mat K) (dmin dmax : Option (U64 × Mat K)),
      spline.rows = n + p → vals.rows = unknowns false p n lower upper → vals.cols = spline.cols →
      GivenDerivs lower p spline.cols dmin → GivenDerivs upper p spline.cols dmax →
      ∃ spline', B.apply L σ' junk spline vals dmin dmax = .ok spline' ∧ spline'.rows = n + p ∧
        spline'.cols = spline.cols ∧ ∀ j, j < spline.cols →
          InterpolatesUpTo (uniformKnot a b n p) p n (unknowns false p n lower upper) X lower upper (fun k => vals.val k j)
            (fun i => derivAt dmin i j) (fun i => derivAt dmax i j) (fun J => spline'.val J j) ((b - a) / n) τ := by
  obtain ⟨u', eu', h⟩ := BSpl.is_uniform hp false hab hn hs
  obtain rfl := Res.ok.inj (eu'.symm.trans eu)
  obtain rfl := ubs_of_mk hp hab hn (by omega) eu
  have hD' := hD
  rw [ubs_grevilleDomain hf] at hD'
  have hadd := unknowns_add (p := p) (n := n) hf
  simp only [Bool.false_eq_true, if_false] at hadd
  obtain ⟨X', hX', hc'⟩ := greville_centred hp hab hn hs hf hg hmix
  obtain ⟨X, hX, hB⟩ := C41_uniform_partial hp hab hn hs hf eu hD hg hmix (by simp)
    (fun _ => hroom) (fun hu => by
      rw [← Res.ok.inj hD', ← Nat.zero_add (unknowns false p n lower upper)]
      exact mixed_accepted hp (hmix hu).1 (hmix hu).2 hab hn hs hf h hX' fun k hk => mixed_points hp hab hn hs hf hu hg hX' hk) hL hσ
  have hc : Centred a b false p n lower upper (unknowns false p n lower upper) X := by
    rw [Centred, if_neg (by simp)] at hc' ⊢
    intro k hk h1 h2
    rw [← hc' k hk h1 h2]
    exact Res.ok.inj ((hX.coord k hk).symm.trans (hX'.coord k hk))
  have hle : ∀ c : Closure, edgeEquations c p ≤ p / 2 := fun c => by cases c <;> simp [edgeEquations]
  have hl1 := hle lower
  have hl2 := hle upper
  have hn' : (0 : K) < n := by exact_mod_cast hn
  obtain ⟨B, τ, eB, hτ, hB'⟩ := (hB (n + p) _ (by simp) rfl).2 (by
    simp only [Bool.false_eq_true, if_false]
    refine C41_well_posed h (fun c _ _ => ?_) hl1 hl2 (by omega)
      (greville_wellPosed hp hab hn hs hf hg hmix hX hc (by omega)) (div_pos (sub_pos.2 hab) hn').ne'
    rw [uniformKnot_step c 1]
    have := div_pos (sub_pos.2 hab) hn'
    rw [Nat.cast_one, one_mul]
    linarith)
  refine ⟨B, X, τ, eB, hτ, hX, fun σ' hσ' junk spline vals dmin dmax g1 g2 g3 g4 g5 => ?_⟩
  obtain ⟨s', e1, e2, e3, e4⟩ := hB' σ' hσ' junk spline vals dmin dmax g1 g2 g3 g4 g5
  exact ⟨s', e1, e2, e3, fun j hj => (e4 j hj).1⟩

/-- Cubic splines on 50 cells with the Greville points on both sides: the hypotheses of `C41_open_partial`
hold, for any data. -/
example {L : Lapack Rat} (hL : L.Exact) {σ : Sched} (hσ : σ.Valid) : ∃ u D g B,
    UBS.mk' 3 false (0 : Rat) 1 50 = .ok u ∧ u.grevilleDomain .greville .greville = .ok D ∧
      u.grevilleMixed .greville .greville = .ok g ∧
      Builder.mk' L σ (.uniform u) .greville .greville D g.coordinate = .ok B ∧ ∀ y : Nat → Nat → Rat,
      ∃ c, B.apply L σ (fun _ _ => 0) ⟨53, 4, fun _ _ => 0⟩ ⟨53, 4, y⟩ none none = .ok c := by
  have hf : Fits false .greville .greville := by simp [Fits]
  obtain ⟨u, eu, -⟩ := BSpl.is_uniform (p := 3) (n := 50) (by norm_num) false (show (0 : Rat) < 1 by norm_num)
    (by norm_num) (by norm_num)
  have eu' := ubs_of_mk (by norm_num) (show (0 : Rat) < 1 by norm_num) (by norm_num) (by norm_num) eu
  subst eu'
  have hD := ubs_grevilleDomain (p := 3) (n := 50) (a := (0 : Rat)) (b := 1) hf
  have hN : unknowns false 3 50 .greville .greville = 53 := by
    have := unknowns_add (p := 3) (n := 50) hf
    simpa [edgeEquations] using this
  obtain ⟨g, hgr⟩ : ∃ g, (ubs 3 false (0 : Rat) 1 50).grevilleMixed .greville .greville = .ok g := by
    obtain ⟨u, _, g, e, _, _, hg, _⟩ := C37_uniform_greville_partial 3 (by norm_num) (by norm_num) (0 : Rat) 1
      (by norm_num) 50 (by norm_num) (by norm_num) (by norm_num) .greville .greville hf (.inl rfl)
    obtain rfl := Res.ok.inj (eu.symm.trans e)
    exact ⟨g, hg⟩
  have hg : GrevilleCoord (ubs 3 false (0 : Rat) 1 50) .greville .greville g.coordinate := by
    rw [GrevilleCoord, if_neg (fun h => by simpa [edgeEquations] using (C37_kind _ _).1 h)]
    exact ⟨_, hgr, rfl⟩
  obtain ⟨B, X, τ, eB, -, -, hB⟩ := C41_open_partial (n := 50) (by norm_num) (by norm_num) (by norm_num)
    (by norm_num) hf eu hD hg (fun _ => ⟨by norm_num, by norm_num⟩) (by simp [edgeRows]) hL hσ
  refine ⟨_, _, _, B, eu, hD, hgr, eB, fun y => ?_⟩
  obtain ⟨c, e, -⟩ := hB σ hσ (fun _ _ => 0) ⟨53, 4, fun _ _ => 0⟩ ⟨53, 4, y⟩ none none rfl hN.symm rfl
    (by simp [GivenDerivs]) (by simp [GivenDerivs])
  exact ⟨c, e⟩

/-- B-splines of degree 11 on 30 cells with derivatives given on both sides: the hypotheses of
`C41_open_partial` hold. -/
example {L : Lapack Rat} (hL : L.Exact) {σ : Sched} (hσ : σ.Valid) : ∃ u D g B,
    UBS.mk' 11 false (0 : Rat) 1 30 = .ok u ∧ u.grevilleDomain .hermite .hermite = .ok D ∧
      u.grevilleUniform = .ok g ∧ Builder.mk' L σ (.uniform u) .hermite .hermite D g.coordinate = .ok B := by
  have hf : Fits false .hermite .hermite := by simp [Fits]
  obtain ⟨u, eu, -⟩ := BSpl.is_uniform (p := 11) (n := 30) (by norm_num) false (show (0 : Rat) < 1 by norm_num)
    (by norm_num) (by norm_num)
  have eu' := ubs_of_mk (by norm_num) (show (0 : Rat) < 1 by norm_num) (by norm_num) (by norm_num) eu
  subst eu'
  have hu := (C37_kind (p := 11) (per := false) (a := (0 : Rat)) (b := 1) (n := 30) .hermite .hermite).2 (by simp [edgeEquations])
  have hD := ubs_grevilleDomain (p := 11) (n := 30) (a := (0 : Rat)) (b := 1) hf
  have hgr := ubs_grevilleUniform (p := 11) (per := false) (show (0 : Rat) < 1 by norm_num) (n := 30) (by norm_num) (by norm_num)
  obtain ⟨B, X, τ, eB, -⟩ := C41_open_partial (n := 30) (by norm_num) (by norm_num) (by norm_num)
    (by norm_num) hf eu hD (by rw [GrevilleCoord, if_pos hu]; exact .inl ⟨_, hgr, rfl⟩)
    (fun c => by rw [hu] at c; cases c) (by simp [edgeRows]) hL hσ
  exact ⟨_, _, _, B, eu, hD, hgr, eB⟩

end DDC.Props
