import Verif.Model.RoundedEdgePoints
import Verif.Props.C59
import Verif.Props.C60b
import Mathlib.Tactic.IntervalCases

/-!
# C59: Greville points of periodic non-uniform B-splines, with rounding
-/

namespace DDC.Props

open Rounded Spec One NUBS

variable {fl : Rat → Rat}

section

variable {u : NUBS Rat} {p n : Nat} {t T : Nat → Rat}

theorem countLoop_fl {pts : Arr Rat} {g : Nat → Rat} {a len : Rat} {c : Nat} (hc : c < p) (hsz : c < pts.size)
    (hv : ∀ i, i ≤ c → pts.val i = some (g i)) (hlt : ∀ i, i < c → g i < a) (hge : a ≤ g c) :
    ∀ (fuel k : Nat) (temp : Arr Rat), c - k < fuel → k ≤ c → temp.size = p →
      (∀ i, i < k → temp.val i = some (fl (g i + len))) →
      ∃ temp', Rounded.countLoop fl pts a len p fuel k temp = .ok (c, temp') ∧ temp'.size = p ∧
        ∀ i, i < c → temp'.val i = some (fl (g i + len)) := by
  intro fuel
  induction fuel with
  | zero => intro k temp h; omega
  | succ fuel ih =>
    intro k temp hf hk ht hval
    rw [Rounded.countLoop, Arr.rd_ok (by omega) (hv k hk), Res.ok_bind]
    by_cases hkc : k = c
    · subst hkc
      rw [if_neg (not_lt.2 hge)]
      exact ⟨temp, rfl, ht, hval⟩
    · rw [if_pos (hlt k (by omega)), decide_eq_true (by omega : k < p), Res.guardAbort_true, Res.ok_bind,
        Arr.wr_ok (by omega), Res.ok_bind]
      refine ih (k + 1) _ (by omega) (by omega) ht fun i hi => ?_
      rw [Arr.set_val]
      by_cases h : i = k
      · rw [if_pos h, h]
      · rw [if_neg h, hval i (by omega)]

/-- The points, in order: the first ones of the next period come last. -/
def flShifted (fl : Rat → Rat) (g : Nat → Rat) (n c : Nat) (len : Rat) (j : Nat) : Rat :=
  if j + c < n then g (j + c) else fl (g (j + c - n) + len)

theorem grevilleClosed_eq (h : u.Is p n t) (hper : u.periodic = true) {c : Nat} (hcp : c < p)
    (hcn : c < n) (hlt : ∀ i, i < c → flAverage fl t p i < t p) (hge : t p ≤ flAverage fl t p c) :
    Rounded.grevilleClosed fl u = NonUniform.mk' () ((List.range (n + 1)).map
      (flShifted fl (flAverage fl t p) n c (fl (t (p + n) - t p)))) := by
  have hsm := h.small
  have hn := h.cells
  obtain ⟨p0, e0, s0, v0, -⟩ := setLoop_ok (f := fun i => Rounded.grevilleOne fl u (el () 0) (el () (0 + i)))
    (pos := id) (v := flAverage fl t p) (m := n) (N := n + 1)
    (fun k arr hk hsz => by rw [Nat.zero_add]; exact grevilleOne_fl h (by omega) (by omega) arr hsz)
    (fun i j hij _ => by simpa using hij.ne) (Arr.const (n + 1) 0) rfl
  simp only [id] at v0
  obtain ⟨len, hlen⟩ : ∃ len, len = fl (t (p + n) - t p) := ⟨_, rfl⟩
  rw [← hlen]
  obtain ⟨temp, et, st, vt⟩ := countLoop_fl (fl := fl) (p := p) (len := len) hcp (by omega : c < p0.size)
    (fun i hi => v0 i (by omega)) hlt hge (p + 1) 0 (Arr.const p 0) (by omega) (by omega) rfl
    (fun i hi => absurd hi (by omega))
  -- shift
  obtain ⟨p1, e1, s1, v1, w1⟩ := forLoop_inv (f := fun i (pts : Arr Rat) => do
      let x ← Arr.rd pts (i + c)
      Arr.wr pts i x)
    (fun i pts => pts.size = n + 1 ∧ (∀ j, j < i → pts.val j = some (flAverage fl t p (j + c))) ∧
      ∀ j, i ≤ j → pts.val j = p0.val j) (n - c) 0 p0
    ⟨s0, fun j hj => absurd hj (by omega), fun j _ => rfl⟩ (by
      rintro i pts - hi ⟨g1, g2, g3⟩
      refine ⟨pts.set i (flAverage fl t p (i + c)), ?_, ?_⟩
      · rw [Arr.rd_ok (by omega) (by rw [g3 _ (by omega), v0 _ (by omega)]), Res.ok_bind,
          Arr.wr_ok (by omega)]
      · refine ⟨g1, fun j hj => ?_, fun j hj => ?_⟩
        · rw [Arr.set_val]
          by_cases hji : j = i
          · rw [if_pos hji, hji]
          · rw [if_neg hji, g2 j (by omega)]
        · rw [Arr.set_val, if_neg (by omega), g3 j (by omega)])
  rw [Nat.zero_add] at v1 w1
  obtain ⟨p2, e2, s2, v2, w2⟩ := setLoop_ok (f := fun i (pts : Arr Rat) => do
      let x ← temp.rd i
      Arr.wr pts (BitVec.ofNat 64 n - BitVec.ofNat 64 c + BitVec.ofNat 64 i : U64).toNat x)
    (pos := fun i => n - c + i) (v := fun i => fl (flAverage fl t p i + len)) (m := c) (N := n + 1)
    (fun k arr hk hsz => by
      rw [Arr.rd_ok (by omega) (vt k hk), Res.ok_bind, ofNat_sub (by omega), ← BitVec.ofNat_add,
        BitVec.toNat_ofNat, Nat.mod_eq_of_lt (by omega), Arr.wr_ok (by omega)])
    (fun i j hij _ => by simp; omega) p1 s1
  have hp20 : p2.val 0 = some (flAverage fl t p c) := by
    rw [w2 0 (fun i _ => by omega), v1 0 (by omega), Nat.zero_add]
  have h3 := Arr.toList_ok (a := p2.set (n + 1 - 1) (fl (flAverage fl t p c + len)))
    (flShifted fl (flAverage fl t p) n c len) (fun j hj => by
      rw [Arr.set_size, s2] at hj
      rw [Arr.set_val, flShifted]
      by_cases g : j = n + 1 - 1
      · rw [if_pos g, if_neg (by omega), show j + c - n = c by omega]
      · rw [if_neg g]
        by_cases g' : j + c < n
        · rw [if_pos g', w2 j (fun i _ => by omega), v1 j (by omega)]
        · rw [if_neg g']
          have := v2 (j + c - n) (by omega)
          rw [show n - c + (j + c - n) = j by omega] at this
          exact this)
  rw [Arr.set_size, s2] at h3
  have e5 : (BitVec.ofNat 64 n + 1 : U64).toNat = n + 1 := by
    rw [NUBS.ofNat_succ, BitVec.toNat_ofNat, Nat.mod_eq_of_lt (by omega)]
  have e6 : (BitVec.ofNat 64 n - BitVec.ofNat 64 c : U64).toNat = n - c := by
    rw [ofNat_sub (by omega), BitVec.toNat_ofNat, Nat.mod_eq_of_lt (by omega)]
  have e7 : Rounded.grevillePeriodic fl u (n + 1) p0 =
      .ok (p2.set (n + 1 - 1) (fl (flAverage fl t p c + len))) := by
    rw [Rounded.grevillePeriodic, h.rmin, Res.ok_bind, Rounded.nubsLength, h.rmax, Res.ok_bind, h.rmin, Res.ok_bind,
      Res.pure_eq, Res.ok_bind, nubs_nbasis h, hper, Res.ok_bind, ← hlen]
    simp only [if_true, h.degree]
    rw [et, Res.ok_bind]
    simp only [e6]
    rw [e1, Res.ok_bind, e2, Res.ok_bind, Arr.rd_ok (by omega) hp20, Res.ok_bind, Arr.wr_ok (by omega)]
  rw [Rounded.grevilleClosed, nubs_nbasis h, Res.ok_bind, hper]
  simp only [if_true]
  rw [nubs_full h, Res.ok_bind, ve1_eq, One.takeFirst, Res.ok_bind, Nat.zero_add, e5,
    hostForEach1_seg (by omega) (by omega), One.front, Nat.sub_zero, e0, Res.ok_bind, e7,
    Res.ok_bind, h3, Res.ok_bind]

/-! ## Accuracy -/

/-- The averages move by the distance of the knots. -/
theorem average_gap (hp : 0 < p) {j : Nat} {δ : Rat} (h : ∀ k, j + 1 ≤ k → k < j + 1 + p → δ ≤ t (k + 1) - t k) :
    average t p j + δ ≤ average t p (j + 1) := by
  have hp' : (0 : Rat) < p := by exact_mod_cast hp
  have e1 := Finset.sum_range_succ (fun k => t (j + 1 + k)) p
  have e2 := Finset.sum_range_succ' (fun k => t (j + 1 + k)) p
  have e3 : ∑ k ∈ Finset.range p, t (j + 1 + (k + 1)) = ∑ k ∈ Finset.range p, t (j + 1 + 1 + k) :=
    Finset.sum_congr rfl fun k _ => congrArg t (by omega)
  rw [e2, e3] at e1
  simp only [Nat.add_zero] at e1
  have e4 : ∀ q, q ≤ p → q * δ ≤ t (j + 1 + q) - t (j + 1) := by
    intro q hq
    induction q with
    | zero => simp
    | succ q ih =>
      have h1 := ih (by omega)
      have h2 := h (j + 1 + q) (by omega) (by omega)
      push_cast
      rw [← Nat.add_assoc]
      linarith
  have e5 := e4 p le_rfl
  rw [average, average, div_add' _ _ _ hp'.ne', div_le_div_iff_of_pos_right hp']
  linarith

theorem average_near (hp : 0 < p) {j : Nat} {δ : Rat} (h : ∀ k, k < p → |t (j + 1 + k) - T (j + 1 + k)| ≤ δ) :
    |average t p j - average T p j| ≤ δ := by
  have hp' : (0 : Rat) < p := by exact_mod_cast hp
  rw [average, average, ← sub_div, abs_div, abs_of_pos hp', div_le_iff₀ hp', ← Finset.sum_sub_distrib]
  refine (Finset.abs_sum_le_sum_abs _ _).trans ?_
  refine (Finset.sum_le_card_nsmul (Finset.range p) _ δ (fun k hk => h k (Finset.mem_range.1 hk))).trans ?_
  rw [Finset.card_range, nsmul_eq_mul]
  linarith

/-- The knots computed by the constructor and the knots in exact arithmetic. -/
structure NearKnots (p n : Nat) (M : Rat) (t T : Nat → Rat) : Prop where
  cells : p ≤ n
  pos : 0 < p
  mono : Monotone t
  near : ∀ k, k ≤ 2 * p → |t (k + n) - (t k + (t (p + n) - t p))| ≤
    1 / 2 ^ 52 * (|t k| + |t (k + n)| + (t (p + n) - t p))
  inner : ∀ k, p ≤ k → k ≤ p + n → T k = t k
  periodic : ∀ k, k ≤ 2 * p → T (k + n) = T k + (t (p + n) - t p)
  lower : |t p| ≤ M
  upper : |t (p + n)| ≤ M
  proper : t p < t (p + n)
  cell : ∀ k, p ≤ k → k < p + n → (6 * p + 60) * M / 2 ^ 53 ≤ t (k + 1) - t k

namespace NearKnots

variable {M : Rat}

theorem M_pos (h : NearKnots p n M t T) : 0 < M := by
  have h1 := abs_le.1 h.lower
  have h2 := abs_le.1 h.upper
  linarith [h.proper]

theorem length_le (h : NearKnots p n M t T) : t (p + n) - t p ≤ 2 * M := by
  have h1 := abs_le.1 h.lower
  have h2 := abs_le.1 h.upper
  linarith

theorem inside (h : NearKnots p n M t T) {k : Nat} (h1 : p ≤ k) (h2 : k ≤ p + n) : |t k| ≤ M := by
  have h3 := abs_le.1 h.lower
  have h4 := abs_le.1 h.upper
  exact abs_le.2 ⟨by linarith [h.mono h1], by linarith [h.mono h2]⟩

theorem below (h : NearKnots p n M t T) {k : Nat} (hk : k < p) :
    |t k - T k| ≤ 14 / 2 ^ 53 * M ∧ |t k| ≤ 4 * M ∧ |T k| ≤ 3 * M := by
  have hc := h.cells
  have hM := h.M_pos
  have h1 := h.near k (by omega)
  have h2 := h.periodic k (by omega)
  have h3 := h.inside (k := k + n) (by omega) (by omega)
  rw [h.inner (k + n) (by omega) (by omega)] at h2
  have h4 := h.length_le
  have h5 := sub_pos.2 h.proper
  obtain ⟨D, hD⟩ : ∃ D, D = t (p + n) - t p := ⟨_, rfl⟩
  rw [← hD] at h1 h2 h4 h5
  rw [h2, show T k + D - (t k + D) = T k - t k by ring] at h1
  have h6 : |T k| ≤ 3 * M := by
    have := abs_le.1 h3
    exact abs_le.2 ⟨by linarith, by linarith⟩
  have h7 : |t k| ≤ |T k| + |T k - t k| := by
    have := abs_sub (T k) (T k - t k)
    rwa [sub_sub_cancel] at this
  rw [h2] at h3
  have h8 : |t k| ≤ 4 * M := by
    linarith [abs_nonneg (t k)]
  refine ⟨?_, h8, h6⟩
  rw [abs_sub_comm]
  linarith

theorem diff (h : NearKnots p n M t T) {k : Nat} (hk : k ≤ p + n) : |t k - T k| ≤ 14 / 2 ^ 53 * M := by
  rcases Nat.lt_or_ge k p with c | c
  · exact (h.below c).1
  · rw [h.inner k c hk, sub_self, abs_zero]
    have := h.M_pos
    positivity

theorem bound (h : NearKnots p n M t T) {k : Nat} (hk : k ≤ p + n) : |t k| ≤ 4 * M := by
  rcases Nat.lt_or_ge k p with c | c
  · exact (h.below c).2.1
  · have := h.inside c hk
    linarith [h.M_pos]

theorem bound' (h : NearKnots p n M t T) {k : Nat} (hk : k ≤ p + n) : |T k| ≤ 3 * M := by
  rcases Nat.lt_or_ge k p with c | c
  · exact (h.below c).2.2
  · rw [h.inner k c hk]
    have := h.inside c hk
    linarith [h.M_pos]

/-- The cells of the exact knots. -/
theorem gap (h : NearKnots p n M t T) {k : Nat} (hk : k < n + 2 * p) : (6 * p + 60) * M / 2 ^ 53 ≤ T (k + 1) - T k := by
  have hc := h.cells
  rcases Nat.lt_or_ge k p with c | c
  · have h1 := h.periodic k (by omega)
    have h2 := h.periodic (k + 1) (by omega)
    have h3 := h.cell (k + n) (by omega) (by omega)
    rw [h.inner _ (by omega) (by omega)] at h1 h2
    rw [show k + 1 + n = k + n + 1 by omega] at h2
    linarith
  · rcases Nat.lt_or_ge k (p + n) with c' | c'
    · rw [h.inner _ (by omega) (by omega), h.inner _ (by omega) (by omega)]
      exact h.cell k c c'
    · have h1 := h.periodic (k - n) (by omega)
      have h2 := h.periodic (k - n + 1) (by omega)
      have h3 := h.cell (k - n) (by omega) (by omega)
      rw [show k - n + n = k by omega] at h1
      rw [show k - n + 1 + n = k + 1 by omega] at h2
      rw [h.inner (k - n) (by omega) (by omega)] at h1
      rw [h.inner (k - n + 1) (by omega) (by omega)] at h2
      linarith

/-- The computed averages. -/
theorem average_error (h : NearKnots p n M t T) (hfl : RoundsAll fl) (hp : p ≤ 2 ^ 20) {i : Nat} (hi : i ≤ n) :
    |flAverage fl t p i - average t p i| ≤ (203 / 100 * p + 609 / 100) * M / 2 ^ 53 ∧
      |flAverage fl t p i - average T p i| ≤ (203 / 100 * p + 2009 / 100) * M / 2 ^ 53 := by
  have h1 := flAverage_error hfl h.pos hp i (t := t) (M := 4 * M) (fun k hk => h.bound (by omega))
  have h2 := average_near h.pos (t := t) (T := T) (j := i) (fun k hk => h.diff (by omega))
  have hM := h.M_pos
  have hpM : 0 ≤ (p : Rat) * M := by positivity
  obtain ⟨a1, a2⟩ := abs_le.1 h1
  obtain ⟨b1, b2⟩ := abs_le.1 h2
  refine ⟨abs_le.2 ⟨by linarith, by linarith⟩, abs_le.2 ⟨by linarith, by linarith⟩⟩

theorem average_period (h : NearKnots p n M t T) {i : Nat} (hi : i ≤ p) :
    average T p (i + n) = average T p i + (t (p + n) - t p) := by
  have hp' : (p : Rat) ≠ 0 := by exact_mod_cast h.pos.ne'
  have e : ∀ k ∈ Finset.range p, T (i + n + 1 + k) = T (i + 1 + k) + (t (p + n) - t p) := fun k hk' => by
    have := h.periodic (i + 1 + k) (by have := Finset.mem_range.1 hk'; omega)
    rw [show i + n + 1 + k = i + 1 + k + n by omega]
    exact this
  rw [average, average, div_add' _ _ _ hp', Finset.sum_congr rfl e, Finset.sum_add_distrib,
    Finset.sum_const, Finset.card_range, nsmul_eq_mul, mul_comm (p : Rat)]

/-- The computed points. -/
theorem shifted_error (h : NearKnots p n M t T) (hfl : RoundsAll fl) (hp : p ≤ 2 ^ 20) {c j : Nat} (hc : c < p) (hj : j ≤ n) :
    |flShifted fl (flAverage fl t p) n c (fl (t (p + n) - t p)) j - average T p (j + c)| ≤
      (203 / 100 * p + 29) * M / 2 ^ 53 := by
  have hpn := h.cells
  have hM := h.M_pos
  have hpM : 0 ≤ (p : Rat) * M := by positivity
  have hp0 : (p : Rat) * M ≤ 2 ^ 20 * M := mul_le_mul_of_nonneg_right (by exact_mod_cast hp) hM.le
  rw [flShifted]
  split_ifs with g
  · have h1 := (h.average_error hfl hp (i := j + c) (by omega)).2
    obtain ⟨a1, a2⟩ := abs_le.1 h1
    exact abs_le.2 ⟨by linarith, by linarith⟩
  · obtain ⟨i, hi⟩ : ∃ i, i = j + c - n := ⟨_, rfl⟩
    have h1 := (h.average_error hfl hp (i := i) (by omega)).2
    have h2 := h.average_period (i := i) (by omega)
    rw [show i + n = j + c by omega] at h2
    rw [← hi, h2]
    have h3 := h.length_le
    have h4 := sub_pos.2 h.proper
    obtain ⟨D, hD⟩ : ∃ D, D = t (p + n) - t p := ⟨_, rfl⟩
    rw [← hD] at h3 h4 ⊢
    have h5 := hfl.error D
    rw [abs_of_pos h4] at h5
    obtain ⟨A, hA⟩ : ∃ A, A = average T p i := ⟨_, rfl⟩
    obtain ⟨F, hF⟩ : ∃ F, F = flAverage fl t p i := ⟨_, rfl⟩
    have h6 : |A| ≤ 3 * M := by
      rw [hA]
      refine abs_le.2 ⟨average_ge h.pos fun k hk => (abs_le.1 (h.bound' (by omega))).1,
        average_le h.pos fun k hk => (abs_le.1 (h.bound' (by omega))).2⟩
    rw [← hA, ← hF] at h1 ⊢
    have h7 := hfl.error (F + fl D)
    obtain ⟨a1, a2⟩ := abs_le.1 h1
    obtain ⟨b1, b2⟩ := abs_le.1 h5
    obtain ⟨c1, c2⟩ := abs_le.1 h6
    have h8 : |F + fl D| ≤ 6 * M := abs_le.2 ⟨by linarith, by linarith⟩
    obtain ⟨d1, d2⟩ := abs_le.1 h7
    exact abs_le.2 ⟨by linarith, by linarith⟩

theorem shifted_lt (h : NearKnots p n M t T) (hfl : RoundsAll fl) (hp : p ≤ 2 ^ 20) {c j : Nat} (hc : c < p) (hj : j < n) :
    flShifted fl (flAverage fl t p) n c (fl (t (p + n) - t p)) j <
      flShifted fl (flAverage fl t p) n c (fl (t (p + n) - t p)) (j + 1) := by
  have hpn := h.cells
  have hM := h.M_pos
  have hpM : 0 ≤ (p : Rat) * M := by positivity
  obtain ⟨a1, a2⟩ := abs_le.1 (h.shifted_error hfl hp hc (j := j) (by omega))
  obtain ⟨b1, b2⟩ := abs_le.1 (h.shifted_error hfl hp hc (j := j + 1) (by omega))
  have h1 := average_gap (t := T) h.pos (j := j + c) (fun k _ hk => h.gap (by omega))
  rw [show j + 1 + c = j + c + 1 by omega] at b1 b2
  linarith

/-- A point whose number is below the degree is in the domain. -/
theorem reaches (h : NearKnots p n M t T) (hfl : RoundsAll fl) (hp : p ≤ 2 ^ 20) (hlo : fl (t p) = t p) :
    t p ≤ flAverage fl t p (p - 1) := by
  have hpn := h.cells
  have hp1 := h.pos
  have hM := h.M_pos
  rcases Nat.lt_or_ge 1 p with h2 | h2
  · obtain ⟨a1, a2⟩ := abs_le.1 (h.average_error hfl hp (i := p - 1) (by omega)).1
    have hp0 : (0 : Rat) < p := by exact_mod_cast hp1
    have hpM : 0 ≤ (p : Rat) * M := by positivity
    have h3 : t p + (3 * p + 30) * M / 2 ^ 53 ≤ average t p (p - 1) := by
      obtain ⟨q, rfl⟩ : ∃ q, p = q + 1 := ⟨p - 1, by omega⟩
      have hq : (1 : Rat) ≤ q := by exact_mod_cast (show 1 ≤ q by omega)
      obtain ⟨κ, hκ⟩ : ∃ κ : Rat, κ = (6 * ((q + 1 : Nat) : Rat) + 60) * M / 2 ^ 53 := ⟨_, rfl⟩
      have hκ0 : 0 ≤ κ := by rw [hκ]; positivity
      have e : (3 * ((q + 1 : Nat) : Rat) + 30) * M / 2 ^ 53 = κ / 2 := by rw [hκ]; ring
      rw [average, le_div_iff₀ hp0, Finset.sum_range_succ', e]
      have h4 := Finset.card_nsmul_le_sum (Finset.range q) (fun k => t (q + 1 - 1 + 1 + (k + 1))) (t (q + 1) + κ)
        (fun k hk => by
          have h5 := h.cell (q + 1) le_rfl (by omega)
          have h6 := h.mono (show q + 1 + 1 ≤ q + 1 - 1 + 1 + (k + 1) by omega)
          rw [← hκ] at h5
          linarith)
      rw [Finset.card_range, nsmul_eq_mul] at h4
      obtain ⟨S, hS⟩ : ∃ S, S = ∑ k ∈ Finset.range q, t (q + 1 - 1 + 1 + (k + 1)) := ⟨_, rfl⟩
      rw [← hS] at h4 ⊢
      rw [show q + 1 - 1 + 1 + 0 = q + 1 by omega]
      rw [Nat.cast_succ]
      have h7 : κ ≤ q * κ := le_mul_of_one_le_left hκ0 hq
      linarith
    linarith
  · obtain rfl : p = 1 := by omega
    have e : flAverage fl t 1 (1 - 1) = t 1 := by
      simp [flAverage, flSum, hlo]
    rw [e]

end NearKnots

end

/-- Periodic non-uniform B-splines, whatever the rounding to nearest, the degree and the break points: there are as many
points as break points, strictly increasing, and each of them is the average of the inner knots of a B-spline up to a few
units in the last place of the largest coordinate.  They start with the B-spline `c`, the last one is the first one of the
next period.  The points of the domain are located in a cell.
Missing: fewer cells than the degree, where the points in exact arithmetic are already wrong (`C37_few_cells`), and cells
below the resolution (`hcell`), where the sampling may not be accepted (`C59_periodic_throws`). -/
theorem C59_periodic_non_uniform_partial (hfl : RoundsNearest fl) (p : Nat) (hp : 0 < p) (hp' : p ≤ 2 ^ 20)
    (breaks : List Rat) (hl : 2 ≤ breaks.length) (hpn : p < breaks.length) (hs : breaks.length + 2 * p < 2 ^ 63)
    (hlt : breaks[0] < breaks[breaks.length - 1]) (h0 : fl breaks[0] = breaks[0])
    (h1 : fl breaks[breaks.length - 1] = breaks[breaks.length - 1]) {M : Rat} (hM : |breaks[0]| ≤ M)
    (hM' : |breaks[breaks.length - 1]| ≤ M)
    (hcell : ∀ i (_ : i + 1 < breaks.length), (6 * p + 60) * M / 2 ^ 53 ≤ breaks[i + 1] - breaks[i]) :
    ∃ u s T c, ∃ x : Nat → Rat, Rounded.mkNubs fl p true breaks = .ok u ∧ KnotsOf p true breaks T ∧
      Rounded.grevilleClosed fl u = .ok s ∧ s.size.toNat = breaks.length ∧ c < p ∧
      (∀ i, i < breaks.length → s.coordinate (el () i) = .ok (x i) ∧
        |x i - average T p (i + c)| ≤ (3 * p + 30) * M / 2 ^ 53) ∧
      (∀ i, i + 1 < breaks.length → x i < x (i + 1)) ∧
      ∀ i, i + 1 < breaks.length → breaks[0] ≤ x i ∧ ∃ k, k + 1 < breaks.length ∧
        Rounded.findCellStart fl u (x i) = .ok (el () (p + k)) := by
  have hfa := hfl.toRoundsAll
  obtain ⟨n, hn⟩ : ∃ n, n = breaks.length - 1 := ⟨_, rfl⟩
  have hM0 : 0 < M := by
    have := abs_le.1 hM
    have := abs_le.1 hM'
    linarith
  have hpM : 0 ≤ (p : Rat) * M := by positivity
  have hκ : 0 ≤ (6 * p + 60) * M / 2 ^ 53 := by positivity
  have hstep : ∀ i (_ : i + 1 < breaks.length), breaks[i] ≤ breaks[i + 1] := fun i h => by linarith [hcell i h]
  have hinc : Increasing breaks := by
    intro i j hij hj
    induction j, hij using Nat.le_induction with
    | base => exact le_refl _
    | succ j hij ih => exact le_trans (ih (by omega)) (hstep j hj)
  have hL : breaks[breaks.length - 1] - breaks[0] ≤ 2 * M := by
    have := abs_le.1 hM
    have := abs_le.1 hM'
    linarith
  have c0 := hcell 0 (by omega)
  have c1 := hcell (breaks.length - 2) (by omega)
  simp only [show breaks.length - 2 + 1 = breaks.length - 1 by omega, Nat.zero_add] at c0 c1
  have hκ' : 0 < (6 * p + 60) * M / 2 ^ 53 := by positivity
  have hw : WideEnds fl breaks := ⟨⟨hl, hinc, by linarith, by linarith⟩, h0, h1, by linarith, by linarith⟩
  obtain ⟨u, t, e, hper, h, hk, g0, g1, hnear⟩ := mkNubs_is hfa hp hs hw
  obtain ⟨-, T, -, -, hT, hKT⟩ := NUBS.mk'_is hp true hl hs hinc hlt
  have ea : t p = breaks[0] := hk 0 (by omega)
  have eb : t (p + (breaks.length - 1)) = breaks[breaks.length - 1] := hk _ (by omega)
  have ea' : T p = breaks[0] := hKT.inner 0 (by omega)
  have eb' : T (p + (breaks.length - 1)) = breaks[breaks.length - 1] := hKT.inner _ (by omega)
  have hN : NearKnots p n M t T := by
    refine ⟨by omega, hp, h.mono, by rw [hn]; exact hnear, fun k k1 k2 => ?_, ?_, by rw [ea]; exact hM,
      by rw [hn, eb]; exact hM', by rw [hn, ea, eb]; exact hlt, fun k k1 k2 => ?_⟩
    · have := hk (k - p) (by omega)
      have := hKT.inner (k - p) (by omega)
      rw [show p + (k - p) = k by omega] at *
      simp_all
    · have := hKT.periodic rfl
      rw [ea', eb'] at this
      rw [hn, ea, eb]
      exact this
    · have a1 := hk (k - p) (by omega)
      have a2 := hk (k - p + 1) (by omega)
      have a3 := hcell (k - p) (by omega)
      rw [show p + (k - p) = k by omega] at a1
      rw [show p + (k - p + 1) = k + 1 by omega] at a2
      rw [a1, a2]
      exact a3
  rw [← hn] at h g1
  have hlo : fl (t p) = t p := by rw [ea]; exact h0
  have hup : fl (t (p + n)) = t (p + n) := by rw [hn, eb]; exact h1
  have hre := hN.reaches hfa hp' hlo
  have hex : ∃ c, t p ≤ flAverage fl t p c := ⟨p - 1, hre⟩
  classical
  obtain ⟨c, hc1, hc2⟩ : ∃ c, t p ≤ flAverage fl t p c ∧ ∀ i, i < c → ¬ t p ≤ flAverage fl t p i :=
    ⟨Nat.find hex, Nat.find_spec hex, fun i hi => Nat.find_min hex hi⟩
  have hcp : c < p := by
    by_contra hcon
    exact hc2 (p - 1) (by omega) hre
  have heq := grevilleClosed_eq h hper hcp (by omega) (fun i hi => not_le.1 (hc2 i hi)) hc1
  obtain ⟨x, hx⟩ : ∃ x, x = flShifted fl (flAverage fl t p) n c (fl (t (p + n) - t p)) := ⟨_, rfl⟩
  have hlt' : ∀ j, j < n → x j < x (j + 1) := fun j hj => by
    rw [hx]; exact hN.shifted_lt hfa hp' hcp hj
  rw [← hx] at heq
  have hmono : ∀ i j, i ≤ j → j ≤ n → x i ≤ x j := by
    intro i j hij
    induction j, hij using Nat.le_induction with
    | base => intro _; exact le_refl _
    | succ j hij ih => intro hj; exact le_trans (ih (by omega)) (hlt' j (by omega)).le
  have hso : isSorted ((List.range (n + 1)).map x) = true := (isSorted_iff _).2 (by
    intro i j hij hj
    simp only [List.getElem_map, List.getElem_range]
    exact hmono i j hij (by simp at hj; omega))
  rw [NonUniform.mk', if_pos hso] at heq
  have hx0 : t p ≤ x 0 := by
    rw [hx, flShifted, if_pos (by omega), Nat.zero_add]
    exact hc1
  refine ⟨u, _, T, c, x, e, hKT, heq, ?_, hcp, fun i hi => ⟨?_, ?_⟩, fun i hi => hlt' i (by omega), fun i hi => ?_⟩
  · simp only [NonUniform.size, List.length_map, List.length_range, BitVec.toNat_ofNat]; omega
  · rw [nu_coordinate_ok () _ (by omega) (by simp; omega)]
    simp
  · have := hN.shifted_error hfa hp' hcp (j := i) (by omega)
    rw [← hx] at this
    refine this.trans ?_
    linarith
  · have hge : t p ≤ x i := hx0.trans (hmono 0 i (by omega) (by omega))
    refine ⟨by rw [← ea]; exact hge, ?_⟩
    by_cases hc : x i ≤ t (p + n)
    · obtain ⟨k, ek, k1, k2, -⟩ := rounded_cell hfa h g0 g1 ⟨hge, hc⟩
      refine ⟨k - p, by omega, ?_⟩
      rw [ek, show p + (k - p) = k by omega]
    · have hc := not_le.1 hc
      have hD := sub_pos.2 hN.proper
      have hclose : x i ≤ t (p + n) + 85 / 2 ^ 53 * (t (p + n) - t p) := by
        rw [hx, flShifted] at hc ⊢
        split_ifs at hc ⊢ with g
        · exfalso
          obtain ⟨a1, a2⟩ := abs_le.1 (hN.average_error hfa hp' (i := i + c) (by omega)).1
          have a3 := average_le (t := t) hp (j := i + c) (c := t (p + n - 1)) (fun k hk => h.mono (by omega))
          have a4 := hN.cell (p + n - 1) (by omega) (by omega)
          rw [show p + n - 1 + 1 = p + n by omega] at a4
          linarith
        · have a1 := not_le.1 (hc2 (i + c - n) (by omega))
          obtain ⟨F, hF⟩ : ∃ F, F = flAverage fl t p (i + c - n) := ⟨_, rfl⟩
          rw [← hF] at a1 hc ⊢
          have a2 := fl_le hfa hD.le
          obtain ⟨D, hD'⟩ : ∃ D, D = t (p + n) - t p := ⟨_, rfl⟩
          rw [← hD'] at a2 hD hc ⊢
          have a3 := hfl.nearest (F + fl D) (t (p + n))
          rw [hup] at a3
          by_cases b : F + fl D ≤ t (p + n)
          · have := hfa.mono _ _ b
            rw [hup] at this
            linarith
          · have b := not_le.1 b
            rw [abs_of_neg (by linarith : t (p + n) - (F + fl D) < 0)] at a3
            have := (abs_le.1 a3).2
            linarith
      have hck := inside_near hfa hN.proper (x := x i) (by linarith) hclose
      have hsm := h.small
      refine ⟨n - 1, by omega, ?_⟩
      simp only [Rounded.findCellStart, h.rmin, h.rmax, Res.ok_bind, hck]
      rw [h.breakDom, One.front, back_nat () (by omega), Res.ok_bind, if_neg (by linarith [hN.proper] : ¬ x i ≤ t p),
        if_pos hc.le]
      rw [show Elem.subInt (el () (p + (n + 1) - 1)) 1 =
        .ok [((), BitVec.ofNat 64 (p + (n + 1) - 1) - 1)] from rfl,
        show (1 : U64) = BitVec.ofNat 64 1 from rfl, ofNat_sub (by omega),
        show p + (n + 1) - 1 - 1 = p + (n - 1) by omega]
      rfl

/-- With the rounding of IEEE 754 and cells of one unit in the last place, the computed Greville points are not sorted and the
constructor of the sampling throws, although the knots are accepted. -/
theorem C59_periodic_throws :
    (Rounded.mkNubs round53 3 true [1, 1 + 1 / 2 ^ 52, 1 + 2 / 2 ^ 52, 1 + 3 / 2 ^ 52, 1 + 4 / 2 ^ 52] >>= fun _ => .ok ()) = .ok () ∧
    (Rounded.mkNubs round53 3 true [1, 1 + 1 / 2 ^ 52, 1 + 2 / 2 ^ 52, 1 + 3 / 2 ^ 52, 1 + 4 / 2 ^ 52] >>= fun u =>
      Rounded.grevilleClosed round53 u) = .throw ∧
    ∀ x ∈ [(1 : Rat), 1 + 1 / 2 ^ 52, 1 + 2 / 2 ^ 52, 1 + 3 / 2 ^ 52, 1 + 4 / 2 ^ 52], round53 x = x := by
  decide +kernel

example : ∃ u s, Rounded.mkNubs round53 3 true [round53 (1 / 10), round53 (3 / 10), 1, 2, round53 (31 / 10)] = .ok u ∧
    Rounded.grevilleClosed round53 u = .ok s ∧ s.size.toNat = 5 := by
  obtain ⟨u, s, T, c, x, e1, -, e2, e3, -⟩ := C59_periodic_non_uniform_partial round53_nearest 3 (by norm_num) (by norm_num)
    [round53 (1 / 10), round53 (3 / 10), 1, 2, round53 (31 / 10)] (by decide) (by decide) (by decide) (by decide +kernel)
    (by decide +kernel) (by decide +kernel) (M := 4) (by decide +kernel) (by decide +kernel)
    (fun i hi => by
      have hi' : i + 1 < 5 := by simpa using hi
      have hi' : i < 4 := by omega
      interval_cases i <;> decide +kernel +revert)
  exact ⟨u, s, e1, e2, e3⟩

end DDC.Props
