import Verif.Model.RoundedPoints
import Verif.Props.C37b
import Verif.Props.C58

/-!
# C59: Greville points, with rounding
-/

namespace DDC.Props

open Rounded Spec One NUBS

variable {fl : Rat → Rat}

/-! ## Non-uniform B-splines -/

/-- Specification: the sum of the first `k` inner knots of a B-spline, rounded after each addition. -/
def flSum (fl : Rat → Rat) (t : Nat → Rat) (j : Nat) : Nat → Rat
  | 0 => 0
  | k + 1 => fl (flSum fl t j k + t (j + 1 + k))

/-- Specification: the average of the inner knots, rounded after each operation. -/
def flAverage (fl : Rat → Rat) (t : Nat → Rat) (p j : Nat) : Rat := fl (flSum fl t j p / p)

section

variable {u : NUBS Rat} {p n : Nat} {t : Nat → Rat}

theorem addLoop_fl {f : Nat → Arr Rat → Res (Arr Rat)} {j i m : Nat}
    (hf : ∀ k a, k < m → f k a = addTo fl a i (t (j + 1 + k))) (a : Arr Rat) (hi : i < a.size) :
    forLoop f 0 m (a.set i 0) = .ok (a.set i (flSum fl t j m)) := by
  obtain ⟨s', e, h⟩ := forLoop_inv (f := f)
    (fun k s => s = a.set i (flSum fl t j k)) m 0 (a.set i 0) rfl (by
      rintro k s - hk rfl
      refine ⟨_, ?_, rfl⟩
      rw [hf k _ (by omega), addTo, Arr.rd_ok (by simpa using hi) (by rw [Arr.set_val, if_pos rfl]), Res.ok_bind,
        Arr.wr_ok (by simpa using hi), Arr.set_set, flSum])
  rw [e, h, Nat.zero_add]

theorem grevilleOne_fl (h : u.Is p n t) {i N : Nat} (hi : i < n + p) (hN : i < N) (pts : Arr Rat)
    (hsz : pts.size = N) :
    Rounded.grevilleOne fl u (el () 0) (el () i) pts = .ok (pts.set i (flAverage fl t p i)) := by
  have hsm := h.small
  rw [Rounded.grevilleOne, indexOf_nat (by omega) (by omega), Res.ok_bind, Nat.sub_zero, Arr.wr_ok (by omega),
    Res.ok_bind, nubs_firstSupportKnot h, Res.ok_bind, show (1 : I64) = BitVec.ofNat 64 1 from rfl, addInt_el,
    Res.ok_bind, ve1_eq, h.degree, ofSize_nat, Res.ok_bind, hostForEach1_seg (by omega) (by omega),
    Nat.add_sub_cancel_left, addLoop_fl (fl := fl) (t := t) (j := i) ?_ pts (by omega), Res.ok_bind,
    Rounded.divBy, Arr.rd_ok (by rw [Arr.set_size]; omega) (by rw [Arr.set_val, if_pos rfl]), Res.ok_bind,
    Arr.wr_ok (by rw [Arr.set_size]; omega), Arr.set_set]
  · rfl
  · intro k arr hk
    rw [h.coord _ (by omega), Res.ok_bind]

theorem grevilleOpen_eq (h : u.Is p n t) (hper : u.periodic = false) :
    Rounded.grevilleOpen fl u = NonUniform.mk' () ((List.range (n + p)).map (flAverage fl t p)) := by
  have hsm := h.small
  obtain ⟨a', e, h1, h2, -⟩ := setLoop_ok (f := fun i => Rounded.grevilleOne fl u (el () 0) (el () (0 + i)))
    (pos := id) (v := flAverage fl t p) (m := n + p) (N := n + p)
    (fun k arr hk hsz => by rw [Nat.zero_add]; exact grevilleOne_fl h (by omega) (by omega) arr hsz)
    (fun i j hij _ => by simpa using hij.ne) (Arr.const (n + p) 0) rfl
  have h3 := Arr.toList_ok _ (fun i hi => h2 i (by rw [h1] at hi; exact hi))
  rw [h1] at h3
  rw [Rounded.grevilleOpen, nubs_nbasis h, Res.ok_bind, hper]
  simp only [Bool.false_eq_true, if_false]
  rw [nubs_full h, Res.ok_bind, ve1_eq, One.takeFirst, Res.ok_bind, Nat.zero_add, BitVec.toNat_ofNat,
    Nat.mod_eq_of_lt (by omega), hostForEach1_seg (by omega) (by omega), One.front, Nat.sub_zero, e, Res.ok_bind, h3,
    Res.ok_bind]

theorem flSum_mono (hfl : RoundsAll fl) (ht : ∀ i j, i ≤ j → t i ≤ t j) (j k : Nat) :
    flSum fl t j k ≤ flSum fl t (j + 1) k := by
  induction k with
  | zero => exact le_refl _
  | succ k ih => exact hfl.mono _ _ (add_le_add ih (ht _ _ (by omega)))

theorem flAverage_mono (hfl : RoundsAll fl) (ht : ∀ i j, i ≤ j → t i ≤ t j) {i j : Nat} (hij : i ≤ j) :
    flAverage fl t p i ≤ flAverage fl t p j := by
  induction hij with
  | refl => exact le_refl _
  | step h ih =>
    refine ih.trans (hfl.mono _ _ ?_)
    exact div_le_div_of_nonneg_right (flSum_mono hfl ht _ p) (by positivity)

theorem flSum_error (hfl : RoundsAll fl) {M : Rat} (j : Nat) (ht : ∀ k, k < p → |t (j + 1 + k)| ≤ M) {k : Nat} (hk : k ≤ p)
    (hp : p ≤ 2 ^ 20) :
    |flSum fl t j k - ∑ i ∈ Finset.range k, t (j + 1 + i)| ≤ 101 / 100 / 2 ^ 53 * M * (k * (k + 1) / 2) ∧
      |∑ i ∈ Finset.range k, t (j + 1 + i)| ≤ k * M := by
  induction k with
  | zero => simp [flSum]
  | succ k ih =>
    obtain ⟨h1, h2⟩ := ih (by omega)
    have hM := ht k (by omega)
    have hM0 : 0 ≤ M := (abs_nonneg _).trans hM
    rw [Finset.sum_range_succ, flSum]
    obtain ⟨S, hS⟩ : ∃ S, S = ∑ i ∈ Finset.range k, t (j + 1 + i) := ⟨_, rfl⟩
    obtain ⟨F, hF⟩ : ∃ F, F = flSum fl t j k := ⟨_, rfl⟩
    rw [← hS] at h1 h2 ⊢
    rw [← hF] at h1 ⊢
    have hk0 : (0 : Rat) ≤ k := by positivity
    have hk1 : (k : Rat) ≤ 2 ^ 20 := by exact_mod_cast (show k ≤ 2 ^ 20 by omega)
    have hE : 101 / 100 / 2 ^ 53 * M * ((k : Rat) * (k + 1) / 2) ≤ 1 / 100 * ((k + 1) * M) := by
      have a1 : (k : Rat) * ((k + 1) * M) ≤ 2 ^ 20 * ((k + 1) * M) := mul_le_mul_of_nonneg_right hk1 (by positivity)
      have a2 : 0 ≤ (k : Rat) * M := by positivity
      linarith
    have e := hfl.error (F + t (j + 1 + k))
    obtain ⟨a1, a2⟩ := abs_le.1 h1
    obtain ⟨b1, b2⟩ := abs_le.1 h2
    obtain ⟨c1, c2⟩ := abs_le.1 hM
    have hz : |F + t (j + 1 + k)| ≤ 101 / 100 * ((k + 1) * M) := abs_le.2 ⟨by linarith, by linarith⟩
    obtain ⟨d1, d2⟩ := abs_le.1 e
    push_cast
    refine ⟨abs_le.2 ⟨?_, ?_⟩, abs_le.2 ⟨?_, ?_⟩⟩ <;> linarith

/-- Accuracy of the averages. -/
theorem flAverage_error (hfl : RoundsAll fl) {M : Rat} (hp : 0 < p) (hp' : p ≤ 2 ^ 20) (j : Nat)
    (ht : ∀ k, k < p → |t (j + 1 + k)| ≤ M) :
    |flAverage fl t p j - average t p j| ≤ 101 / 100 / 2 ^ 53 * M * ((p + 3) / 2) := by
  have hM0 : 0 ≤ M := (abs_nonneg _).trans (ht 0 hp)
  obtain ⟨h1, h2⟩ := flSum_error hfl j ht (le_refl p) hp'
  rw [flAverage, average]
  obtain ⟨S, hS⟩ : ∃ S, S = ∑ i ∈ Finset.range p, t (j + 1 + i) := ⟨_, rfl⟩
  obtain ⟨F, hF⟩ : ∃ F, F = flSum fl t j p := ⟨_, rfl⟩
  rw [← hS] at h1 h2 ⊢
  rw [← hF] at h1 ⊢
  have hp0 : (0 : Rat) < p := by exact_mod_cast hp
  have hp1 : (p : Rat) ≤ 2 ^ 20 := by exact_mod_cast hp'
  have e := hfl.error (F / p)
  have g1 : |F / p - S / p| ≤ 101 / 100 / 2 ^ 53 * M * ((p + 1) / 2) := by
    rw [← sub_div, abs_div, abs_of_pos hp0, div_le_iff₀ hp0]
    refine h1.trans (le_of_eq ?_)
    ring
  have g2 : |S / p| ≤ M := by
    rw [abs_div, abs_of_pos hp0, div_le_iff₀ hp0]
    linarith
  have g3 : (p : Rat) * M ≤ 2 ^ 20 * M := mul_le_mul_of_nonneg_right hp1 hM0
  obtain ⟨a1, a2⟩ := abs_le.1 g1
  obtain ⟨b1, b2⟩ := abs_le.1 g2
  have g4 : |F / p| ≤ 101 / 100 * M := abs_le.2 ⟨by linarith, by linarith⟩
  obtain ⟨c1, c2⟩ := abs_le.1 e
  exact abs_le.2 ⟨by linarith, by linarith⟩

end

/-- A coordinate that is outside of the domain by less than the tolerance satisfies the assertions. -/
theorem inside_near (hfl : RoundsAll fl) {x a b : Rat} (hab : a < b) (h1 : a - 85 / 2 ^ 53 * (b - a) ≤ x)
    (h2 : x ≤ b + 85 / 2 ^ 53 * (b - a)) : Rounded.checkInside fl x a b = .ok () := by
  have hd : 0 < b - a := sub_pos.2 hab
  have L2 := le_fl hfl hd.le
  have htol := le_fl hfl (q := 1 / 10 ^ 14) (by norm_num)
  have hLt : 85 / 2 ^ 53 * (b - a) ≤ fl (b - a) * fl (1 / 10 ^ 14) := by
    calc 85 / 2 ^ 53 * (b - a) ≤ ((1 - 1 / 2 ^ 53) * (b - a)) * ((1 - 1 / 2 ^ 53) * (1 / 10 ^ 14)) := by
          rw [mul_right_comm]
          refine mul_le_mul_of_nonneg_right ?_ hd.le
          norm_num
      _ ≤ _ := mul_le_mul L2 htol (by norm_num) (fl_nonneg hfl hd.le)
  have c1 : decide (fl (-(fl (b - a)) * fl (1 / 10 ^ 14)) ≤ fl (x - a)) = true := by
    simp only [decide_eq_true_eq]
    refine hfl.mono _ _ ?_
    linarith
  have c2 : decide (fl (-(fl (b - a)) * fl (1 / 10 ^ 14)) ≤ fl (b - x)) = true := by
    simp only [decide_eq_true_eq]
    refine hfl.mono _ _ ?_
    linarith
  rw [Rounded.checkInside, c1, c2]
  rfl

/-- Non-uniform B-splines that are not periodic, whatever the rounding, the degree and the break points: there is
one Greville point for each B-spline, and they are sorted; the sampling accepts them. -/
theorem C59_sorted (hfl : RoundsAll fl) (p : Nat) (hp : 0 < p) (breaks : List Rat) (hl : 2 ≤ breaks.length)
    (hb : Increasing breaks) (hs : breaks.length + 2 * p < 2 ^ 63) (hlt : breaks[0] < breaks[breaks.length - 1]) :
    ∃ u s, NUBS.mk' p false breaks = .ok u ∧ Rounded.grevilleOpen fl u = .ok s ∧
      s.size.toNat = breaks.length - 1 + p ∧
      ∃ x : Nat → Rat, (∀ i, i < breaks.length - 1 + p → s.coordinate (el () i) = .ok (x i)) ∧
        ∀ i j, i ≤ j → j < breaks.length - 1 + p → x i ≤ x j := by
  obtain ⟨u, t, e, hper, h, hk⟩ := NUBS.mk'_is hp false hl hs hb hlt
  have hm : ∀ i j : Nat, i ≤ j → flAverage fl t p i ≤ flAverage fl t p j := fun i j hij =>
    flAverage_mono hfl (fun i j hij => h.mono hij) hij
  have h1 : isSorted ((List.range (breaks.length - 1 + p)).map (flAverage fl t p)) = true := (isSorted_iff _).2 (by
    intro i j hij hj
    simp only [List.getElem_map, List.getElem_range]
    exact hm i j hij)
  refine ⟨u, ⟨(List.range (breaks.length - 1 + p)).map (flAverage fl t p), Elem.createReference ()⟩, e, ?_, ?_,
    flAverage fl t p, fun i hi => ?_, fun i j hij _ => hm i j hij⟩
  · rw [grevilleOpen_eq h hper, NonUniform.mk', if_pos h1]
  · simp only [NonUniform.size, List.length_map, List.length_range, BitVec.toNat_ofNat]; omega
  · rw [nu_coordinate_ok () _ (by omega) (by simpa using hi)]
    simp

/-- Non-uniform B-splines that are not periodic, whatever the rounding: each Greville point is the average of
the inner knots of its B-spline, up to a few units of the last place of the largest coordinate, and it is located
in a cell, so that the builder can evaluate the B-splines there.
Missing: domains whose distance to the origin is large with respect to their length (`hfar`); see `C59_aborts`. -/
theorem C59_non_uniform_partial (hfl : RoundsAll fl) (p : Nat) (hp : 0 < p) (hp' : p ≤ 2 ^ 20) (breaks : List Rat)
    (hl : 2 ≤ breaks.length) (hb : Increasing breaks) (hs : breaks.length + 2 * p < 2 ^ 63)
    (hlt : breaks[0] < breaks[breaks.length - 1]) {M : Rat} (hM : |breaks[0]| ≤ M) (hM' : |breaks[breaks.length - 1]| ≤ M)
    (hfar : ((p : Rat) + (3 : Rat)) * M ≤ (160 : Rat) * (breaks[breaks.length - 1] - breaks[0])) :
    ∃ u s t, NUBS.mk' p false breaks = .ok u ∧ NUBS.KnotsOf p false breaks t ∧ Rounded.grevilleOpen fl u = .ok s ∧
      ∀ i, i < breaks.length - 1 + p → ∃ x c, s.coordinate (el () i) = .ok x ∧
        |x - average t p i| ≤ ((p : Rat) + (3 : Rat)) * M / 2 ^ 53 ∧ c + 1 < breaks.length ∧
        Rounded.findCellStart fl u x = .ok (el () (p + c)) := by
  obtain ⟨u, s, e, es, -, x, hx, -⟩ := C59_sorted hfl p hp breaks hl hb hs hlt
  obtain ⟨u', t, e', hper, h, hk⟩ := NUBS.mk'_is hp false hl hs hb hlt
  rw [e] at e'
  obtain rfl := Res.ok.inj e'
  refine ⟨u, s, t, e, hk, es, fun i hi => ?_⟩
  have hxi : x i = flAverage fl t p i := by
    have h1 := hx i hi
    have h2 := grevilleOpen_eq (fl := fl) h hper
    rw [es, NonUniform.mk'] at h2
    by_cases hso : isSorted ((List.range (breaks.length - 1 + p)).map (flAverage fl t p)) = true
    · rw [if_pos hso] at h2
      rw [Res.ok.inj h2, nu_coordinate_ok () _ (by omega) (by simpa using hi)] at h1
      simpa using (Res.ok.inj h1).symm
    · rw [if_neg hso] at h2; cases h2
  have ea : t p = breaks[0] := by
    have := hk.inner 0 (by omega)
    rwa [Nat.add_zero] at this
  have eb : t (p + (breaks.length - 1)) = breaks[breaks.length - 1] := hk.inner _ (by omega)
  have hin : ∀ k, k < p → breaks[0] ≤ t (i + 1 + k) ∧ t (i + 1 + k) ≤ breaks[breaks.length - 1] := by
    intro k hk'
    rw [← ea, ← eb]
    constructor
    · rcases Nat.lt_or_ge (i + 1 + k) p with c | c
      · rw [(hk.clamped rfl (i + 1 + k) (by omega)).1]
      · exact h.mono c
    · rcases Nat.lt_or_ge (p + (breaks.length - 1)) (i + 1 + k) with c | c
      · rw [show i + 1 + k = p + (breaks.length - 1) + (i + 1 + k - (p + (breaks.length - 1))) by omega,
          (hk.clamped rfl _ (by omega)).2]
      · exact h.mono c
  have hMk : ∀ k, k < p → |t (i + 1 + k)| ≤ M := fun k hk' => by
    obtain ⟨h1, h2⟩ := hin k hk'
    exact abs_le.2 ⟨by linarith [(abs_le.1 hM).1], by linarith [(abs_le.1 hM').2]⟩
  have herr := flAverage_error hfl hp hp' i hMk
  have hM0 : 0 ≤ M := (abs_nonneg _).trans hM
  have hp0 : (0 : Rat) ≤ p := by positivity
  have hpM : 0 ≤ (p : Rat) * M := by positivity
  rw [← hxi] at herr
  have g1 : breaks[0] ≤ average t p i := average_ge hp fun k hk' => (hin k hk').1
  have g2 : average t p i ≤ breaks[breaks.length - 1] := average_le hp fun k hk' => (hin k hk').2
  obtain ⟨r1, r2⟩ := abs_le.1 herr
  have hacc : |x i - average t p i| ≤ (p + 3) * M / 2 ^ 53 := abs_le.2 ⟨by linarith, by linarith⟩
  have hL : 0 < breaks[breaks.length - 1] - breaks[0] := sub_pos.2 hlt
  have n1 : breaks[0] - 85 / 2 ^ 53 * (breaks[breaks.length - 1] - breaks[0]) ≤ x i := by linarith
  have n2 : x i ≤ breaks[breaks.length - 1] + 85 / 2 ^ 53 * (breaks[breaks.length - 1] - breaks[0]) := by linarith
  by_cases c1 : breaks[0] ≤ x i ∧ x i ≤ breaks[breaks.length - 1]
  · obtain ⟨c, hc, ec, -⟩ := C58_non_uniform hfl p hp false breaks hl hb hs hlt u e (x i) c1.1 c1.2
    exact ⟨x i, c, hx i hi, hacc, hc, ec⟩
  · have hck := inside_near hfl hlt n1 n2
    have hsm := h.small
    by_cases c2 : x i ≤ breaks[0]
    · refine ⟨x i, 0, hx i hi, hacc, by omega, ?_⟩
      simp only [Rounded.findCellStart, h.rmin, h.rmax, Res.ok_bind, ea, eb, hck]
      rw [h.breakDom, One.front, back_nat () (by omega), Res.ok_bind, if_pos c2]
      rfl
    · refine ⟨x i, breaks.length - 2, hx i hi, hacc, by omega, ?_⟩
      have c3 : breaks[breaks.length - 1] ≤ x i := by
        by_contra c3
        exact c1 ⟨(not_le.1 c2).le, (not_le.1 c3).le⟩
      simp only [Rounded.findCellStart, h.rmin, h.rmax, Res.ok_bind, ea, eb, hck]
      rw [h.breakDom, One.front, back_nat () (by omega), Res.ok_bind, if_neg c2, if_pos c3]
      rw [show Elem.subInt (el () (p + (breaks.length - 1 + 1) - 1)) 1 =
        .ok [((), BitVec.ofNat 64 (p + (breaks.length - 1 + 1) - 1) - 1)] from rfl,
        show (1 : U64) = BitVec.ofNat 64 1 from rfl, ofNat_sub (by omega),
        show p + (breaks.length - 1 + 1) - 1 - 1 = p + (breaks.length - 2) by omega]
      rfl

/-- With the rounding of IEEE 754, the assertions of the evaluation of the B-splines fail at the last Greville
point: cubic splines on one cell `[21.5, 21.6]`.  The builder cannot be constructed there. -/
theorem C59_aborts : ∃ b : Rat, b = round53 (216 / 10) ∧
    (do let u ← NUBS.mk' 3 false [43 / 2, b]
        let s ← Rounded.grevilleOpen round53 u
        let x ← s.coordinate (el () 3)
        Rounded.findCellStart round53 u x) = .abort := by
  refine ⟨_, rfl, ?_⟩
  decide +kernel

example : ∃ u s, NUBS.mk' 3 false [0, 1, round53 (21 / 10), 4] = .ok u ∧ Rounded.grevilleOpen round53 u = .ok s ∧
    s.size.toNat = 6 := by
  obtain ⟨u, s, h1, h2, h3, -⟩ := C59_sorted round53_all 3 (by norm_num) [0, 1, round53 (21 / 10), 4] (by simp)
    ((isSorted_iff _).1 (by decide +kernel)) (by norm_num) (by simp)
  exact ⟨u, s, h1, h2, h3⟩

example : ∃ u s t, NUBS.mk' 3 false [0, 1, round53 (21 / 10), 4] = .ok u ∧
    NUBS.KnotsOf 3 false [0, 1, round53 (21 / 10), 4] t ∧ Rounded.grevilleOpen round53 u = .ok s := by
  obtain ⟨u, s, t, h1, h2, h3, -⟩ := C59_non_uniform_partial round53_all 3 (by norm_num) (by norm_num)
    [0, 1, round53 (21 / 10), 4] (by simp) ((isSorted_iff _).1 (by decide +kernel)) (by norm_num) (by simp) (M := 4)
    (by simp) (by simp) (by simp; norm_num)
  exact ⟨u, s, t, h1, h2, h3⟩

/-! ## Uniform B-splines -/

/-- Specification: the shift of the points, in cells. -/
def grevilleShift (p : Nat) : Rat := if p % 2 = 0 then 1 / 2 else 0

/-- The step of the points. -/
theorem dx_bounds (hfl : RoundsAll fl) {k : Knots} (hn : 0 < k.n) (hr : k.rmin fl < k.rmax fl) :
    |k.n * k.dx fl - (k.rmax fl - k.rmin fl)| ≤ 3 / 2 ^ 53 * (k.rmax fl - k.rmin fl) ∧ 0 ≤ k.dx fl := by
  have hn0 : (0 : Rat) < k.n := by exact_mod_cast hn
  rw [Knots.dx]
  obtain ⟨L, hL⟩ : ∃ L, L = k.rmax fl - k.rmin fl := ⟨_, rfl⟩
  have hL0 : 0 < L := by rw [hL]; linarith
  rw [← hL]
  have u1 := fl_le hfl hL0.le
  have l1 := le_fl hfl hL0.le
  have n1 := fl_nonneg hfl hL0.le
  have u2 := fl_le hfl (q := fl L / k.n) (by positivity)
  have l2 := le_fl hfl (q := fl L / k.n) (by positivity)
  have e : (k.n : Rat) * (fl L / k.n) = fl L := by field_simp
  have u3 := mul_le_mul_of_nonneg_left u2 hn0.le
  have l3 := mul_le_mul_of_nonneg_left l2 hn0.le
  rw [mul_left_comm, e] at u3 l3
  refine ⟨abs_le.2 ⟨?_, ?_⟩, fl_nonneg hfl (by positivity)⟩ <;> linarith

/-- Whatever the rounding, the points are sorted. -/
theorem C59_uniform_sorted (hfl : RoundsAll fl) {k : Knots} (hn : 0 < k.n) (hr : k.rmin fl < k.rmax fl) {i j : Nat}
    (hij : i ≤ j) : k.grevillePoint fl i ≤ k.grevillePoint fl j := by
  have hd := (dx_bounds hfl hn hr).2
  have hij' : (i : Rat) ≤ j := by exact_mod_cast hij
  rw [Knots.grevillePoint, Knots.grevillePoint]
  refine hfl.mono _ _ (add_le_add le_rfl (hfl.mono _ _ ?_))
  exact mul_le_mul_of_nonneg_right hij' hd

theorem rmin_fix (hfl : RoundsNearest fl) (k : Knots) : fl (k.rmin fl) = k.rmin fl := hfl.idem _

theorem rmax_fix (hfl : RoundsNearest fl) (k : Knots) : fl (k.rmax fl) = k.rmax fl := hfl.idem _

/-- Bounds of the points. -/
theorem point_bounds (hfl : RoundsNearest fl) {k : Knots} (hn : 0 < k.n) (hn' : k.n < 2 ^ 31) (hs : 0 < k.step)
    (hlen : |k.rmax fl - k.rmin fl - k.n * k.step| ≤ 1 / 8 * k.step) (hr : |k.rmin fl| ≤ 2 ^ 49 * k.step) {i : Nat}
    (hi : if k.p % 2 = 0 then i < k.n else i ≤ k.n) :
    k.rmin fl ≤ k.grevillePoint fl i ∧
      k.grevillePoint fl i ≤ k.rmax fl + 10 / 2 ^ 53 * (k.rmax fl - k.rmin fl) ∧
      |k.grevillePoint fl i - (k.rmin fl + (i + grevilleShift k.p) * ((k.rmax fl - k.rmin fl) / k.n))| ≤
        (2 * |k.rmin fl| + 10 * (k.rmax fl - k.rmin fl)) / 2 ^ 53 := by
  have hfl' := hfl.toRoundsAll
  have hn0 : (1 : Rat) ≤ k.n := by exact_mod_cast hn
  have hn1 : (k.n : Rat) ≤ 2 ^ 31 := by exact_mod_cast hn'.le
  have hrR : k.rmin fl < k.rmax fl := by
    have h1 := (abs_le.1 hlen).1
    have h2 := mul_le_mul_of_nonneg_right hn0 hs.le
    linarith
  obtain ⟨hd, hd0⟩ := dx_bounds hfl' hn hrR
  have fr := rmin_fix hfl k
  have fR := rmax_fix hfl k
  have hN : (k.n : Rat) * k.step ≤ 2 ^ 31 * k.step := mul_le_mul_of_nonneg_right hn1 hs.le
  have hN' : k.step ≤ (k.n : Rat) * k.step := by
    have := mul_le_mul_of_nonneg_right hn0 hs.le
    linarith
  have hnear := hfl.nearest (k.rmin fl + fl (k.n * k.dx fl)) (k.rmax fl)
  rw [fR] at hnear
  rw [Knots.grevillePoint, grevilleShift]
  obtain ⟨r, hrr⟩ : ∃ r, r = k.rmin fl := ⟨_, rfl⟩
  obtain ⟨R, hRR⟩ : ∃ R, R = k.rmax fl := ⟨_, rfl⟩
  obtain ⟨s, hss⟩ : ∃ s, s = k.step := ⟨_, rfl⟩
  obtain ⟨d, hdd⟩ : ∃ d, d = k.dx fl := ⟨_, rfl⟩
  rw [← hrr, ← hRR, ← hdd] at hnear
  rw [← hrr, ← hRR, ← hdd] at hd
  rw [← hrr] at fr hr
  rw [← hRR] at fR
  rw [← hdd] at hd0
  rw [← hrr, ← hRR] at hrR
  rw [← hrr, ← hRR, ← hss] at hlen
  rw [← hss] at hN hN' hs hr
  rw [← hrr, ← hRR, ← hdd]
  obtain ⟨L, hL⟩ : ∃ L, L = R - r := ⟨_, rfl⟩
  rw [← hL] at hd hlen ⊢
  have hL0 : 0 < L := by linarith
  obtain ⟨d1, d2⟩ := abs_le.1 hd
  obtain ⟨e1, e2⟩ := abs_le.1 hlen
  have hi0 : (0 : Rat) ≤ i := by positivity
  have hnpos : (0 : Rat) < k.n := by linarith
  -- the exact and the rounded multiples of the step
  obtain ⟨q, hq⟩ : ∃ q, q = (i : Rat) * d := ⟨_, rfl⟩
  have hq0 : 0 ≤ q := by rw [hq]; positivity
  have hin : (i : Rat) ≤ k.n := by
    have : i ≤ k.n := by split at hi <;> omega
    exact_mod_cast this
  have hqn : q ≤ k.n * d := by rw [hq]; exact mul_le_mul_of_nonneg_right hin hd0
  have hqe : |q - i * (L / k.n)| ≤ 3 / 2 ^ 53 * L := by
    have h1 : q - i * (L / k.n) = (i / k.n) * (k.n * d - L) := by rw [hq]; field_simp
    have h2 : |(i : Rat) / k.n| ≤ 1 := by
      rw [abs_of_nonneg (by positivity)]
      exact (div_le_one hnpos).2 hin
    rw [h1, abs_mul]
    calc |(i : Rat) / k.n| * |k.n * d - L| ≤ 1 * |k.n * d - L| := mul_le_mul_of_nonneg_right h2 (abs_nonneg _)
      _ ≤ _ := by rw [one_mul]; exact hd
  rw [← hq]
  have fq1 := fl_le hfl' hq0
  have fq2 := le_fl hfl' hq0
  have fq0 := fl_nonneg hfl' hq0
  obtain ⟨Q, hQ⟩ : ∃ Q, Q = fl q := ⟨_, rfl⟩
  rw [← hQ] at fq1 fq2 fq0 ⊢
  obtain ⟨qe1, qe2⟩ := abs_le.1 hqe
  obtain ⟨w, hw⟩ : ∃ w, w = (i : Rat) * (L / k.n) := ⟨_, rfl⟩
  rw [← hw] at qe1 qe2
  have hrabs := abs_nonneg r
  have hr1 := le_abs_self r
  have hr2 := neg_abs_le r
  by_cases hpar : k.p % 2 = 0
  · rw [if_pos hpar] at hi
    simp only [if_pos hpar]
    have hdn : d ≤ k.n * d := by
      have := mul_le_mul_of_nonneg_right hn0 hd0
      linarith
    -- the shift
    have hh0 : (0 : Rat) ≤ 1 / 2 * d := by positivity
    have fh1 := fl_le hfl' hh0
    have fh2 := le_fl hfl' hh0
    have fh0 := fl_nonneg hfl' hh0
    obtain ⟨h, hh⟩ : ∃ h, h = fl (1 / 2 * d) := ⟨_, rfl⟩
    rw [← hh] at fh1 fh2 fh0 ⊢
    have hqn' : q + d ≤ k.n * d := by
      have : (i : Rat) + 1 ≤ k.n := by exact_mod_cast hi
      have := mul_le_mul_of_nonneg_right this hd0
      rw [hq]; linarith
    have eo := hfl.error (r + h)
    have mo := hfl.mono r (r + h) (by linarith)
    rw [fr] at mo
    obtain ⟨o, ho⟩ : ∃ o, o = fl (r + h) := ⟨_, rfl⟩
    rw [← ho] at eo mo ⊢
    have habs : |r + h| ≤ |r| + h := by
      refine (abs_add_le _ _).trans ?_
      rw [abs_of_nonneg fh0]
    obtain ⟨o1, o2⟩ := abs_le.1 eo
    -- the last rounding
    have ex := hfl.error (o + Q)
    obtain ⟨x1, x2⟩ := abs_le.1 ex
    have hoabs : |o + Q| ≤ |r| + h + (|r| + h) / 2 ^ 53 + Q := by
      refine abs_le.2 ⟨by linarith, by linarith⟩
    have hns : (k.n : Rat) * s ≤ k.n * s := le_rfl
    -- `d` against `s`
    have hds : 3 / 4 * s ≤ d := by
      have h1 : (3 / 4 * s) * k.n ≤ d * k.n := by linarith
      exact le_of_mul_le_mul_right h1 hnpos
    have hup : fl (o + Q) ≤ R := by
      rw [← fR]
      refine hfl.mono _ _ ?_
      linarith
    refine ⟨?_, by linarith, ?_⟩
    · rw [← fr]
      exact hfl.mono _ _ (by linarith)
    · have hwe : ((i : Rat) + 1 / 2) * (L / k.n) = w + 1 / 2 * (L / k.n) := by rw [hw]; ring
      have hLn : |d - L / k.n| ≤ 3 / 2 ^ 53 * L := by
        have h1 : d - L / k.n = (1 / k.n) * (k.n * d - L) := by field_simp
        have h2 : |(1 : Rat) / k.n| ≤ 1 := by
          rw [abs_of_nonneg (by positivity)]
          exact (div_le_one hnpos).2 hn0
        rw [h1, abs_mul]
        calc |(1 : Rat) / k.n| * |k.n * d - L| ≤ 1 * |k.n * d - L| := mul_le_mul_of_nonneg_right h2 (abs_nonneg _)
          _ ≤ _ := by rw [one_mul]; exact hd
      obtain ⟨y1, y2⟩ := abs_le.1 hLn
      rw [hwe]
      refine abs_le.2 ⟨?_, ?_⟩ <;> linarith
  · rw [if_neg hpar] at hi
    simp only [if_neg hpar]
    have f0 : fl (0 * d) = 0 := by
      rw [zero_mul]
      have := hfl.exact 0 (by norm_num)
      simpa using this
    rw [f0, add_zero, fr, add_zero]
    have ex := hfl.error (r + Q)
    obtain ⟨x1, x2⟩ := abs_le.1 ex
    have habs : |r + Q| ≤ |r| + Q := by
      refine (abs_add_le _ _).trans ?_
      rw [abs_of_nonneg fq0]
    refine ⟨?_, ?_, ?_⟩
    · rw [← fr]
      refine le_trans (hfl.mono _ _ ?_) (hfl.mono _ _ (le_refl _))
      linarith
    · have hnd0 : 0 ≤ (k.n : Rat) * d := by positivity
      have g1 := fl_le hfl' hnd0
      have g2 := le_fl hfl' hnd0
      have hm : Q ≤ fl (k.n * d) := by rw [hQ]; exact hfl.mono _ _ hqn
      have hm' : fl (r + Q) ≤ fl (r + fl (k.n * d)) := hfl.mono _ _ (by linarith)
      refine hm'.trans ?_
      have hz : |R - (r + fl (k.n * d))| ≤ 5 / 2 ^ 53 * L := abs_le.2 ⟨by linarith, by linarith⟩
      have h1 := (abs_le.1 (hnear.trans hz)).2
      linarith
    · rw [← hw]
      refine abs_le.2 ⟨?_, ?_⟩ <;> linarith

/-- Uniform B-splines, whatever the rounding to nearest: the points of the uniform sampling (closures other than
`GREVILLE`, or periodic) are those of exact arithmetic up to a few units of the last place, and each of them is
located in a cell `c ≤ n`.
Missing: `c < n`; see `C59_uniform_past_the_end`.  `hres`: the step is larger than the resolution of the
coordinates. -/
theorem C59_uniform_partial (hfl : RoundsNearest fl) {a b : Rat} (hab : a < b) {n p : Nat} (hn : 0 < n)
    (hn' : n + 1 < 2 ^ 31) (hp : p ≤ 2 ^ 20) (hres : |a| * n ≤ 2 ^ 46 * (b - a)) {k : Knots}
    (hk : k = mkKnots fl a b n p) {i : Nat} (hi : if p % 2 = 0 then i < n else i ≤ n) :
    |k.grevillePoint fl i - (k.rmin fl + (i + grevilleShift p) * ((k.rmax fl - k.rmin fl) / n))| ≤
        (2 * |k.rmin fl| + 10 * (k.rmax fl - k.rmin fl)) / 2 ^ 53 ∧
      ∃ (c : Int) (o : Rat), getIcellAndOffset fl k (k.grevillePoint fl i) = .ok (c, o) ∧ 0 ≤ c ∧ c ≤ n ∧
        0 ≤ o ∧ o ≤ 1 := by
  obtain ⟨hs, hlen, hr⟩ := knots_bounds3 hfl.toRoundsAll hab hn (by omega) hp hres
  rw [← hk] at hs hlen hr
  have kn : k.n = n := by rw [hk]; rfl
  have kp : k.p = p := by rw [hk]; rfl
  have hn0 : (1 : Rat) ≤ n := by exact_mod_cast hn
  have hrR : k.rmin fl < k.rmax fl := by
    have h1 := (abs_le.1 hlen).1
    have h2 := mul_le_mul_of_nonneg_right hn0 hs.le
    linarith
  obtain ⟨h1, h2, h3⟩ := point_bounds hfl (k := k) (by omega) (by omega) hs (by rw [kn]; exact hlen) hr (i := i)
    (by rw [kp, kn]; exact hi)
  rw [kn, kp] at h3
  refine ⟨h3, ?_⟩
  have hL : 0 < k.rmax fl - k.rmin fl := sub_pos.2 hrR
  have hin := inside_near hfl.toRoundsAll (x := k.grevillePoint fl i) hrR (by linarith) (by linarith)
  by_cases c2 : k.rmax fl ≤ k.grevillePoint fl i
  · have c1 : ¬ k.grevillePoint fl i ≤ k.rmin fl := not_le.2 (lt_of_lt_of_le hrR c2)
    rw [getIcellAndOffset, hin, Res.ok_bind, if_neg c1, if_pos c2, kn]
    exact ⟨(n : Int) - 1, 1, rfl, by omega, by omega, by norm_num, le_refl _⟩
  · obtain ⟨c, o, e, h1, h2, h3, h4, -⟩ := C58_uniform_partial hfl.toRoundsAll hab hn hn' hp hres hk h1 (not_le.1 c2).le
    exact ⟨c, o, e, h1, h2, h3, h4⟩

/-- With the rounding of IEEE 754, the last interpolation point can be located past the last cell: cubic splines
with `HERMITE` closures on 100 cells of `[-2, 2.1]`.  There are 103 B-splines; evaluating the spline at its own
interpolation points reads the coefficients 100 to 103. -/
theorem C59_uniform_past_the_end : ∃ k : Knots, k = mkKnots round53 (-2) (round53 (21 / 10)) 100 3 ∧
    k.rmin round53 ≤ k.grevillePoint round53 100 ∧ k.grevillePoint round53 100 ≤ k.rmax round53 ∧
    getIcellAndOffset round53 k (k.grevillePoint round53 100) = .ok (100, 1 / 2 ^ 46) := by
  refine ⟨_, rfl, ?_⟩
  decide +kernel

example : ∃ c o, getIcellAndOffset round53 (mkKnots round53 (-2) (round53 (21 / 10)) 100 2)
    ((mkKnots round53 (-2) (round53 (21 / 10)) 100 2).grevillePoint round53 7) = .ok (c, o) := by
  obtain ⟨-, c, o, e, -⟩ := C59_uniform_partial (a := -2) (b := round53 (21 / 10)) (n := 100) (p := 2) (i := 7)
    round53_nearest (by decide +kernel) (by norm_num) (by norm_num) (by norm_num) (by decide +kernel) rfl (by norm_num)
  exact ⟨c, o, e⟩

end DDC.Props
