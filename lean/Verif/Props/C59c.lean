import Verif.Model.RoundedEdgePoints
import Verif.Props.C59

/-!
# C59: Greville points at the edges of uniform B-splines, with rounding
-/

namespace DDC.Props

open Rounded Spec One

variable {fl : Rat → Rat} {k : Knots}

/-! ## The program -/

/-- The sum that starts with `s`, rounded after each addition. -/
def flSumFrom (fl : Rat → Rat) (s : Rat) (g : Nat → Rat) : Nat → Rat
  | 0 => s
  | m + 1 => fl (flSumFrom fl s g m + g m)

theorem addLoop_from {f : Nat → Arr Rat → Res (Arr Rat)} {g : Nat → Rat} {i m : Nat} {s : Rat}
    (hf : ∀ j a, j < m → f j a = addTo fl a i (g j)) (a : Arr Rat) (hi : i < a.size) :
    forLoop f 0 m (a.set i s) = .ok (a.set i (flSumFrom fl s g m)) := by
  obtain ⟨s', e, h⟩ := forLoop_inv (f := f)
    (fun j b => b = a.set i (flSumFrom fl s g j)) m 0 (a.set i s) rfl (by
      rintro j b - hj rfl
      refine ⟨_, ?_, rfl⟩
      rw [hf j _ (by omega), addTo, Arr.rd_ok (by simpa using hi) (by rw [Arr.set_val, if_pos rfl]), Res.ok_bind,
        Arr.wr_ok (by simpa using hi), Arr.set_set, flSumFrom])
  rw [e, h, Nat.zero_add]

/-- A computed point at the lower edge. -/
def lowerPoint (fl : Rat → Rat) (k : Knots) (i : Nat) : Rat :=
  fl (flSumFrom fl (fl (((k.p - i : Nat) : Rat) * k.rmin fl)) (fun j => k.coordinate fl (k.p + 1 + j)) i / k.p)

/-- A computed point at the upper edge. -/
def upperPoint (fl : Rat → Rat) (k : Knots) (i : Nat) : Rat :=
  fl (flSumFrom fl (fl (((k.p - i : Nat) : Rat) * k.rmax fl)) (fun j => k.coordinate fl (k.n + k.p - i + j)) i / k.p)

theorem lower_ok {i : Nat} (pts : Arr Rat) (hi : i < pts.size) :
    k.grevilleLower fl i pts = .ok (pts.set i (lowerPoint fl k i)) := by
  rw [Knots.grevilleLower, Arr.wr_ok hi, Res.ok_bind, addLoop_from (fun _ _ _ => rfl) pts hi, Res.ok_bind,
    Rounded.divBy, Arr.rd_ok (by rw [Arr.set_size]; omega) (by rw [Arr.set_val, if_pos rfl]), Res.ok_bind,
    Arr.wr_ok (by rw [Arr.set_size]; omega), Arr.set_set]
  rfl

theorem upper_ok {i N : Nat} (pts : Arr Rat) (hN : pts.size = N) (hi : i < N) :
    k.grevilleUpper fl N i pts = .ok (pts.set (N - 1 - i) (upperPoint fl k i)) := by
  have h1 : N - 1 - i < pts.size := by omega
  rw [Knots.grevilleUpper, Arr.wr_ok h1, Res.ok_bind, addLoop_from (fun _ _ _ => rfl) pts h1, Res.ok_bind,
    Rounded.divBy, Arr.rd_ok (by rw [Arr.set_size]; omega) (by rw [Arr.set_val, if_pos rfl]), Res.ok_bind,
    Arr.wr_ok (by rw [Arr.set_size]; omega), Arr.set_set]
  rfl

/-- The computed points. -/
def mixedRounded (fl : Rat → Rat) (k : Knots) (lo up : Closure) (j : Nat) : Rat :=
  let N := unknowns false k.p k.n lo up
  let start := if lo = .greville then k.p / 2 + 1 else 1
  if up = .greville ∧ N - 1 - j ≤ k.p / 2 then upperPoint fl k (N - 1 - j)
  else if up ≠ .greville ∧ j = N - 1 then k.grevillePoint fl (k.n - 1 + k.p % 2)
  else if start ≤ j then k.grevillePoint fl (j - start + 1)
  else if lo = .greville then lowerPoint fl k j
  else k.grevillePoint fl 0

theorem mixedRounded_ok (hp : 0 < k.p) (hn : 0 < k.n) {lo up : Closure} (hf : Fits false lo up) :
    k.grevilleMixed fl lo up =
      NonUniform.mk' () ((List.range (unknowns false k.p k.n lo up)).map (mixedRounded fl k lo up)) := by
  have hadd := unknowns_add (p := k.p) (n := k.n) hf
  have hsplit := unknowns_split (p := k.p) (n := k.n) hf hn
  simp only [Bool.false_eq_true, if_false] at hadd
  obtain ⟨N, hN⟩ : ∃ N, N = unknowns false k.p k.n lo up := ⟨_, rfl⟩
  obtain ⟨st, hst⟩ : ∃ st, st = if lo = .greville then k.p / 2 + 1 else 1 := ⟨_, rfl⟩
  rw [← hN] at hadd
  rw [← hN, ← hst] at hsplit
  have hst' : lo = .greville ∧ st = k.p / 2 + 1 ∨ lo ≠ .greville ∧ st = 1 := by
    by_cases g : lo = .greville
    · exact Or.inl ⟨g, by rw [hst, if_pos g]⟩
    · exact Or.inr ⟨g, by rw [hst, if_neg g]⟩
  obtain ⟨r, hr, hN1⟩ : ∃ r, r = (if up = .greville then k.p / 2 else 0) ∧ N = st + (k.n - 1) + k.p % 2 + r :=
    ⟨_, rfl, hsplit⟩
  have hr1 : up = .greville → r = k.p / 2 := fun g => by rw [hr, if_pos g]
  -- the lower edge
  obtain ⟨p1, e1, s1, v1⟩ : ∃ p1, k.grevilleLowers fl lo (Arr.const N 0) = .ok p1 ∧ p1.size = N ∧
      ∀ j, j < st → p1.val j = some (if lo = .greville then lowerPoint fl k j else k.grevillePoint fl 0) := by
    rcases hst' with ⟨g, e⟩ | ⟨g, e⟩
    · obtain ⟨p1, e1, s1, v1, -⟩ := setLoop_ok (f := k.grevilleLower fl) (pos := id)
        (v := lowerPoint fl k) (m := k.p / 2 + 1) (N := N)
        (fun i arr hi hsz => lower_ok arr (by omega))
        (fun i j hij _ => by simpa using hij.ne) (Arr.const N 0) rfl
      refine ⟨p1, ?_, s1, fun j hj => ?_⟩
      · rw [Knots.grevilleLowers, if_pos g]; exact e1
      · rw [if_pos g]; exact v1 j (by omega)
    · refine ⟨(Arr.const N 0).set 0 (k.grevillePoint fl 0), ?_, rfl, fun j hj => ?_⟩
      · rw [Knots.grevilleLowers, if_neg g, Arr.wr_ok (by simp only [Arr.const]; omega)]
      · rw [Arr.set_val, if_pos (by omega), if_neg g]
  -- the central points
  obtain ⟨p2, e2, s2, v2, w2⟩ : ∃ p2, k.grevilleCentral fl lo p1 = .ok p2 ∧ p2.size = N ∧
      (∀ i, i < k.n - 1 → p2.val (i + st) = some (k.grevillePoint fl (1 + i))) ∧ ∀ j, j < st → p2.val j = p1.val j := by
    obtain ⟨p2, e2, s2, v2, w2⟩ := setLoop_ok
      (f := fun i (pts : Arr Rat) => Arr.wr pts (i + st) (k.grevillePoint fl (1 + i)))
      (pos := fun i => i + st) (v := fun i => k.grevillePoint fl (1 + i)) (m := k.n - 1) (N := N)
      (fun i arr hi hsz => Arr.wr_ok (by omega) _) (fun i j hij _ => by simp; omega) p1 s1
    refine ⟨p2, ?_, s2, v2, fun j hj => w2 j (fun i _ => by omega)⟩
    rw [Knots.grevilleCentral, ← hst, show k.n + 1 - 2 = k.n - 1 by omega]
    exact e2
  -- the upper edge
  obtain ⟨p3, e3, s3, v3, w3, x3⟩ : ∃ p3, k.grevilleUppers fl up N p2 = .ok p3 ∧ p3.size = N ∧
      (up = .greville → ∀ i, i ≤ k.p / 2 → p3.val (N - 1 - i) = some (upperPoint fl k i)) ∧
      (up ≠ .greville → p3.val (N - 1) = some (k.grevillePoint fl (k.n - 1 + k.p % 2))) ∧
      ∀ j, j < N → (if up = .greville then k.p / 2 < N - 1 - j else j ≠ N - 1) → p3.val j = p2.val j := by
    by_cases g : up = .greville
    · obtain ⟨p3, e3, s3, v3, w3⟩ := setLoop_ok
        (f := k.grevilleUpper fl N) (pos := fun i => N - 1 - i)
        (v := upperPoint fl k) (m := k.p / 2 + 1) (N := N)
        (fun i arr hi hsz => upper_ok arr hsz (by have := hr1 g; omega))
        (fun i j hij hj => by have := hr1 g; omega) p2 s2
      refine ⟨p3, by rw [Knots.grevilleUppers, if_pos g]; exact e3, s3, fun _ i hi => v3 i (by omega),
        fun g' => absurd g g', fun j hj hj' => w3 j fun i hi => ?_⟩
      rw [if_pos g] at hj'
      omega
    · refine ⟨p2.set (N - 1) (k.grevillePoint fl (k.n - 1 + k.p % 2)), ?_, s2, fun g' => absurd g' g,
        fun _ => by rw [Arr.set_val, if_pos rfl], fun j hj hj' => ?_⟩
      · rw [Knots.grevilleUppers, if_neg g, Arr.wr_ok (by omega)]
      · rw [if_neg g] at hj'
        rw [Arr.set_val, if_neg hj']
  have hmid : ∀ j, j < N → (if up = .greville then k.p / 2 < N - 1 - j else j ≠ N - 1) → p3.val j =
      some (if st ≤ j then k.grevillePoint fl (j - st + 1)
        else if lo = .greville then lowerPoint fl k j else k.grevillePoint fl 0) := by
    intro j hj hc
    rw [x3 j hj hc]
    by_cases c' : st ≤ j
    · rw [if_pos c']
      have := v2 (j - st) (by
        by_cases g : up = .greville
        · rw [if_pos g] at hc
          have := hr1 g
          omega
        · rw [if_neg g] at hc hr
          omega)
      rwa [show j - st + st = j by omega, Nat.add_comm 1] at this
    · rw [if_neg c', w2 j (by omega), v1 j (by omega)]
  have hlist := Arr.toList_ok (a := p3) (mixedRounded fl k lo up) (fun j hj => by
    rw [s3] at hj
    simp only [mixedRounded, ← hN, ← hst]
    by_cases g : up = .greville
    · by_cases c : N - 1 - j ≤ k.p / 2
      · rw [if_pos ⟨g, c⟩]
        have := v3 g (N - 1 - j) c
        rwa [show N - 1 - (N - 1 - j) = j by omega] at this
      · rw [if_neg (fun x => c x.2), if_neg (fun x => x.1 g), hmid j hj (by rw [if_pos g]; omega)]
    · rw [if_neg (fun x => g x.1)]
      by_cases c : j = N - 1
      · rw [if_pos ⟨g, c⟩, c, w3 g]
      · rw [if_neg (fun x => c x.2), hmid j hj (by rw [if_neg g]; exact c)])
  rw [s3] at hlist
  have hg : decide (0 < edgeEquations lo k.p + edgeEquations up k.p →
      edgeEquations lo k.p + edgeEquations up k.p ≤ k.n + k.p) = true := decide_eq_true fun _ => by omega
  have hc : k.n + k.p - (edgeEquations lo k.p + edgeEquations up k.p) = N := by omega
  rw [Knots.grevilleMixed, equations_eq, equations_eq]
  simp only [hg, Res.guardAbort_true, Res.ok_bind, hc]
  rw [e1, Res.ok_bind, e2, Res.ok_bind, e3, Res.ok_bind, hlist, Res.ok_bind, hN]

/-! ## Accuracy -/

/-- The largest coordinate that appears, up to a factor: the knots extend `p` cells beyond the domain. -/
def knotScale (a b : Rat) (n p : Nat) : Rat := |a| + |b| + p * ((b - a) / n)

/-- The accuracy of the knots. -/
structure KnotsNear (fl : Rat → Rat) (k : Knots) (a b : Rat) (n p : Nat) : Prop where
  n_eq : k.n = n
  p_eq : k.p = p
  cells : 0 < n
  lt : a < b
  coord : ∀ i, i ≤ n + 2 * p →
    |k.coordinate fl i - (a + ((i : Rat) - p) * ((b - a) / n))| ≤ 12 / 2 ^ 53 * knotScale a b n p

theorem knots_near (hfl : RoundsAll fl) {a b : Rat} (hab : a < b) {n p : Nat} (hn : 0 < n) :
    KnotsNear fl (mkKnots fl a b n p) a b n p := by
  refine ⟨rfl, rfl, hn, hab, fun i hi => ?_⟩
  have hn0 : (0 : Rat) < n := by exact_mod_cast hn
  have hd : 0 < b - a := sub_pos.2 hab
  rw [Knots.coordinate, mkKnots, knotScale]
  simp only
  obtain ⟨σ, hσ⟩ : ∃ σ, σ = (b - a) / n := ⟨_, rfl⟩
  rw [← hσ]
  have hσ0 : 0 < σ := by rw [hσ]; positivity
  have hnσ : n * σ = b - a := by rw [hσ]; field_simp
  -- the step
  have a1 := fl_le hfl hd.le
  have a2 := le_fl hfl hd.le
  have a0 := fl_nonneg hfl hd.le
  have b1 := fl_le hfl (q := fl (b - a) / n) (by positivity)
  have b2 := le_fl hfl (q := fl (b - a) / n) (by positivity)
  have b3 : fl (b - a) / n ≤ (1 + 1 / 2 ^ 53) * σ := by
    rw [div_le_iff₀ hn0]
    linarith
  have b4 : (1 - 1 / 2 ^ 53) * σ ≤ fl (b - a) / n := by
    rw [le_div_iff₀ hn0]
    linarith
  obtain ⟨s, hs⟩ : ∃ s, s = fl (fl (b - a) / n) := ⟨_, rfl⟩
  rw [← hs] at b1 b2 ⊢
  have s1 : s ≤ σ + 201 / 100 / 2 ^ 53 * σ := by linarith
  have s2 : σ - 201 / 100 / 2 ^ 53 * σ ≤ s := by linarith
  have s0 : 0 ≤ s := by linarith
  clear a1 a2 a0 b1 b2 b3 b4 hs
  -- multiples of the step
  have hmul : ∀ m : Nat, |fl (m * s) - m * σ| ≤ 302 / 100 / 2 ^ 53 * (m * σ) := by
    intro m
    have m0 : (0 : Rat) ≤ m := by positivity
    have h1 := fl_le hfl (q := m * s) (by positivity)
    have h2 := le_fl hfl (q := m * s) (by positivity)
    have h3 := mul_le_mul_of_nonneg_left s1 m0
    have h4 := mul_le_mul_of_nonneg_left s2 m0
    have h5 : 0 ≤ m * σ := by positivity
    refine abs_le.2 ⟨by linarith, by linarith⟩
  obtain ⟨p1, p2⟩ := abs_le.1 (hmul p)
  obtain ⟨i1, i2⟩ := abs_le.1 (hmul i)
  have eo := hfl.error (a - fl (p * s))
  have ex := hfl.error (fl (a - fl (p * s)) + fl (i * s))
  obtain ⟨o, ho⟩ : ∃ o, o = fl (a - fl (p * s)) := ⟨_, rfl⟩
  rw [← ho] at eo ex ⊢
  obtain ⟨Q, hQ⟩ : ∃ Q, Q = fl (p * s) := ⟨_, rfl⟩
  obtain ⟨I, hI⟩ : ∃ I, I = fl (i * s) := ⟨_, rfl⟩
  rw [← hQ] at p1 p2 eo
  rw [← hI] at i1 i2 ex ⊢
  have hi' : (i : Rat) * σ ≤ (n + 2 * p) * σ := mul_le_mul_of_nonneg_right (by exact_mod_cast hi) hσ0.le
  have hpσ : 0 ≤ (p : Rat) * σ := by positivity
  have hiσ : 0 ≤ (i : Rat) * σ := by positivity
  have ha1 := le_abs_self a
  have ha2 := neg_abs_le a
  have hb1 := le_abs_self b
  have hb2 := neg_abs_le b
  have ha0 := abs_nonneg a
  have hb0 := abs_nonneg b
  have zo : |a - Q| ≤ |a| + 101 / 100 * (p * σ) := abs_le.2 ⟨by linarith, by linarith⟩
  obtain ⟨o1, o2⟩ := abs_le.1 eo
  have zx : |o + I| ≤ 101 / 100 * (|a| + |b| + p * σ) := abs_le.2 ⟨by linarith, by linarith⟩
  obtain ⟨x1, x2⟩ := abs_le.1 ex
  exact abs_le.2 ⟨by linarith, by linarith⟩

namespace KnotsNear

variable {a b : Rat} {n p : Nat}

theorem scale_pos (h : KnotsNear fl k a b n p) : b - a ≤ knotScale a b n p ∧ 0 < knotScale a b n p ∧
    (∀ i : Rat, -(p : Rat) ≤ i → i ≤ n + p → |a + i * ((b - a) / n)| ≤ knotScale a b n p) ∧ n * ((b - a) / n) = b - a ∧
    0 < (b - a) / n := by
  have hn0 : (0 : Rat) < n := by exact_mod_cast h.cells
  have hd : 0 < b - a := sub_pos.2 h.lt
  have hnσ : n * ((b - a) / n) = b - a := by field_simp
  have hσ0 : 0 < (b - a) / n := by positivity
  rw [knotScale]
  obtain ⟨σ, hσ⟩ : ∃ σ, σ = (b - a) / n := ⟨_, rfl⟩
  rw [← hσ] at hnσ hσ0 ⊢
  have hpσ : 0 ≤ (p : Rat) * σ := by positivity
  have ha1 := le_abs_self a
  have ha2 := neg_abs_le a
  have hb1 := le_abs_self b
  have hb2 := neg_abs_le b
  refine ⟨by linarith, by linarith, fun i h1 h2 => ?_, hnσ, hσ0⟩
  have g1 := mul_le_mul_of_nonneg_right h1 hσ0.le
  have g2 := mul_le_mul_of_nonneg_right h2 hσ0.le
  exact abs_le.2 ⟨by linarith [abs_nonneg b], by linarith [abs_nonneg a]⟩

theorem rmin_near (h : KnotsNear fl k a b n p) : |k.rmin fl - a| ≤ 12 / 2 ^ 53 * knotScale a b n p := by
  have := h.coord p (by omega)
  rw [sub_self, zero_mul, add_zero] at this
  rwa [Knots.rmin, h.p_eq]

theorem rmax_near (h : KnotsNear fl k a b n p) : |k.rmax fl - b| ≤ 12 / 2 ^ 53 * knotScale a b n p := by
  have := h.coord (p + n) (by omega)
  rw [Nat.cast_add, add_sub_cancel_left, h.scale_pos.2.2.2.1, add_sub_cancel] at this
  rwa [Knots.rmax, h.p_eq, h.n_eq]

/-- The accuracy of the sums at the edges. -/
theorem sum_near (h : KnotsNear fl k a b n p) (hfl : RoundsAll fl) {r ρ : Rat} {i : Nat} (hi : i ≤ p / 2) (hp : p ≤ 8)
    (hr : |r - ρ| ≤ 12 / 2 ^ 53 * knotScale a b n p) (hρ : |ρ| ≤ knotScale a b n p) {g γ : Nat → Rat}
    (hg : ∀ j, j < i → |g j - γ j| ≤ 12 / 2 ^ 53 * knotScale a b n p) (hγ : ∀ j, j < i → |γ j| ≤ knotScale a b n p)
    {m : Nat} (hm : m ≤ i) :
    |flSumFrom fl (fl (((p - i : Nat) : Rat) * r)) g m - ((p - i : Nat) * ρ + ∑ j ∈ Finset.range m, γ j)| ≤
        (14 * ((p - i : Nat) + m) + m * 9) / 2 ^ 53 * knotScale a b n p ∧
      |(p - i : Nat) * ρ + ∑ j ∈ Finset.range m, γ j| ≤ ((p - i : Nat) + m) * knotScale a b n p := by
  have hH := h.scale_pos.2.1
  generalize knotScale a b n p = H at hr hρ hg hγ hH ⊢
  have hq : (0 : Rat) ≤ ((p - i : Nat) : Rat) := by positivity
  have hqm : ((p - i : Nat) : Rat) + i ≤ 8 := by exact_mod_cast (by omega : p - i + i ≤ 8)
  generalize ((p - i : Nat) : Rat) = q at hq hqm ⊢
  have h1 : |q * ρ| ≤ q * H := by
    rw [abs_mul, abs_of_nonneg hq]
    exact mul_le_mul_of_nonneg_left hρ hq
  induction m with
  | zero =>
    rw [flSumFrom, Finset.sum_range_zero, add_zero]
    have h2 : |q * r - q * ρ| ≤ q * (12 / 2 ^ 53 * H) := by
      rw [← mul_sub, abs_mul, abs_of_nonneg hq]
      exact mul_le_mul_of_nonneg_left hr hq
    have h3 := hfl.error (q * r)
    have hqH : 0 ≤ q * H := by positivity
    obtain ⟨a1, a2⟩ := abs_le.1 h1
    obtain ⟨b1, b2⟩ := abs_le.1 h2
    have h4 : |q * r| ≤ 101 / 100 * (q * H) := abs_le.2 ⟨by linarith, by linarith⟩
    obtain ⟨c1, c2⟩ := abs_le.1 h3
    push_cast
    exact ⟨abs_le.2 ⟨by linarith, by linarith⟩, by linarith⟩
  | succ m ih =>
    obtain ⟨i1, i2⟩ := ih (by omega)
    rw [flSumFrom, Finset.sum_range_succ, ← add_assoc]
    obtain ⟨F, hF⟩ : ∃ F, F = flSumFrom fl (fl (q * r)) g m := ⟨_, rfl⟩
    obtain ⟨S, hS⟩ : ∃ S, S = q * ρ + ∑ j ∈ Finset.range m, γ j := ⟨_, rfl⟩
    rw [← hF, ← hS] at i1
    rw [← hS] at i2
    rw [← hF, ← hS]
    have g1 := hg m (by omega)
    have g2 := hγ m (by omega)
    have e := hfl.error (F + g m)
    have hm0 : (0 : Rat) ≤ m := by positivity
    have hm8 : (m : Rat) + 1 ≤ i := by exact_mod_cast hm
    have hmH : (q + (m + 1)) * H ≤ 8 * H := mul_le_mul_of_nonneg_right (by linarith) hH.le
    have hmH0 : 0 ≤ (m : Rat) * H := by positivity
    have hqH : 0 ≤ q * H := by positivity
    obtain ⟨a1, a2⟩ := abs_le.1 i1
    obtain ⟨b1, b2⟩ := abs_le.1 i2
    obtain ⟨c1, c2⟩ := abs_le.1 g1
    obtain ⟨d1, d2⟩ := abs_le.1 g2
    have hz : |F + g m| ≤ 82 / 10 * H := abs_le.2 ⟨by linarith, by linarith⟩
    obtain ⟨f1, f2⟩ := abs_le.1 e
    push_cast
    refine ⟨abs_le.2 ⟨by linarith, by linarith⟩, abs_le.2 ⟨by linarith, by linarith⟩⟩

theorem edge_near (h : KnotsNear fl k a b n p) (hfl : RoundsAll fl) {r ρ : Rat} {i : Nat} (hi : i ≤ p / 2) (hp : p ≤ 8)
    (hp0 : 0 < p) (hr : |r - ρ| ≤ 12 / 2 ^ 53 * knotScale a b n p) (hρ : |ρ| ≤ knotScale a b n p) {g γ : Nat → Rat}
    (hg : ∀ j, j < i → |g j - γ j| ≤ 12 / 2 ^ 53 * knotScale a b n p) (hγ : ∀ j, j < i → |γ j| ≤ knotScale a b n p) :
    |fl (flSumFrom fl (fl (((p - i : Nat) : Rat) * r)) g i / p) - ((p - i : Nat) * ρ + ∑ j ∈ Finset.range i, γ j) / p| ≤
      20 / 2 ^ 53 * knotScale a b n p := by
  obtain ⟨h1, h2⟩ := h.sum_near hfl hi hp hr hρ hg hγ (le_refl i)
  have hH := h.scale_pos.2.1
  have e : (((p - i : Nat) : Rat) + i) = p := by exact_mod_cast (by omega : p - i + i = p)
  rw [e] at h1 h2
  have hp1 : (0 : Rat) < p := by exact_mod_cast hp0
  have hi2 : (i : Rat) ≤ p / 2 := by
    have : 2 * i ≤ p := by omega
    have : (2 : Rat) * i ≤ p := by exact_mod_cast this
    linarith
  generalize knotScale a b n p = H at h1 h2 hH ⊢
  obtain ⟨F, hF⟩ : ∃ F, F = flSumFrom fl (fl (((p - i : Nat) : Rat) * r)) g i := ⟨_, rfl⟩
  obtain ⟨S, hS⟩ : ∃ S, S = ((p - i : Nat) : Rat) * ρ + ∑ j ∈ Finset.range i, γ j := ⟨_, rfl⟩
  rw [← hF, ← hS] at h1
  rw [← hS] at h2
  rw [← hF, ← hS]
  have g1 : |F / p - S / p| ≤ 185 / 10 / 2 ^ 53 * H := by
    rw [← sub_div, abs_div, abs_of_pos hp1, div_le_iff₀ hp1]
    have := mul_le_mul_of_nonneg_right hi2 hH.le
    linarith
  have g2 : |S / p| ≤ H := by
    rw [abs_div, abs_of_pos hp1, div_le_iff₀ hp1]
    linarith
  have e := hfl.error (F / p)
  obtain ⟨a1, a2⟩ := abs_le.1 g1
  obtain ⟨b1, b2⟩ := abs_le.1 g2
  have g3 : |F / p| ≤ 101 / 100 * H := abs_le.2 ⟨by linarith, by linarith⟩
  obtain ⟨c1, c2⟩ := abs_le.1 e
  exact abs_le.2 ⟨by linarith, by linarith⟩

theorem lower_near (h : KnotsNear fl k a b n p) (hfl : RoundsAll fl) {i : Nat} (hi : i ≤ p / 2) (hp : p ≤ 8) (hp0 : 0 < p) :
    |lowerPoint fl k i - (a + edgePoint p i * ((b - a) / n))| ≤ 20 / 2 ^ 53 * knotScale a b n p := by
  have hs := h.scale_pos.2.2.1
  have h1 := h.edge_near hfl hi hp hp0 h.rmin_near (by have := hs 0 (by simp) (by positivity); simpa using this)
    (g := fun j => k.coordinate fl (p + 1 + j)) (γ := fun j => a + ((j : Rat) + 1) * ((b - a) / n))
    (fun j hj => by
      have := h.coord (p + 1 + j) (by omega)
      push_cast at this
      rwa [show (p : Rat) + 1 + j - p = j + 1 by ring] at this)
    (fun j hj => by
      refine hs _ ?_ ?_
      · have : (0 : Rat) ≤ (j : Rat) + 1 := by positivity
        have : (0 : Rat) ≤ p := by positivity
        linarith
      · have : ((j + 1 : Nat) : Rat) ≤ ((n + p : Nat) : Rat) := by exact_mod_cast (by omega : j + 1 ≤ n + p)
        push_cast at this
        linarith)
  rw [lowerPoint, h.p_eq]
  have hp' : (p : Rat) ≠ 0 := by exact_mod_cast hp0.ne'
  refine le_of_eq_of_le ?_ h1
  congr 2
  rw [Finset.sum_add_distrib, ← Finset.sum_mul, sum_up, Finset.sum_const, Finset.card_range, nsmul_eq_mul, edgePoint,
    Nat.cast_sub (by omega : i ≤ p)]
  field_simp
  ring

theorem upper_near (h : KnotsNear fl k a b n p) (hfl : RoundsAll fl) {i : Nat} (hi : i ≤ p / 2) (hp : p ≤ 8) (hp0 : 0 < p) :
    |upperPoint fl k i - (b - edgePoint p i * ((b - a) / n))| ≤ 20 / 2 ^ 53 * knotScale a b n p := by
  obtain ⟨-, -, hs, hb, -⟩ := h.scale_pos
  have h1 := h.edge_near hfl hi hp hp0 h.rmax_near (by
      have := hs n (by have : (0 : Rat) ≤ n := by positivity
                       have : (0 : Rat) ≤ p := by positivity
                       linarith) (by simp)
      rwa [hb, add_sub_cancel] at this)
    (g := fun j => k.coordinate fl (n + p - i + j)) (γ := fun j => a + ((n : Rat) - i + j) * ((b - a) / n))
    (fun j hj => by
      have := h.coord (n + p - i + j) (by omega)
      rw [Nat.cast_add, Nat.cast_sub (by omega)] at this
      push_cast at this
      rwa [show (n : Rat) + p - i + j - p = n - i + j by ring] at this)
    (fun j hj => by
      have g1 : (i : Rat) ≤ p := by exact_mod_cast (by omega : i ≤ p)
      have g2 : (j : Rat) ≤ i := by exact_mod_cast hj.le
      have g3 : (0 : Rat) ≤ j := by positivity
      have g4 : (0 : Rat) ≤ n := by positivity
      have g5 : (0 : Rat) ≤ p := by positivity
      exact hs _ (by linarith) (by linarith))
  rw [upperPoint, h.p_eq, h.n_eq]
  have hp' : (p : Rat) ≠ 0 := by exact_mod_cast hp0.ne'
  refine le_of_eq_of_le ?_ h1
  congr 2
  have e' : ∑ j ∈ Finset.range i, ((n : Rat) - i + j) = i * n - i * (i + 1) / 2 := by
    have := sum_up (K := Rat) i
    rw [Finset.sum_add_distrib] at this ⊢
    simp only [Finset.sum_const, Finset.card_range, nsmul_eq_mul] at this ⊢
    linarith
  rw [Finset.sum_add_distrib, ← Finset.sum_mul, e', Finset.sum_const, Finset.card_range, nsmul_eq_mul, edgePoint,
    Nat.cast_sub (by omega : i ≤ p)]
  obtain ⟨σ, hσ⟩ : ∃ σ, σ = (b - a) / n := ⟨_, rfl⟩
  rw [← hσ] at hb ⊢
  have eb : b = a + n * σ := by linarith
  rw [eb]
  field_simp
  ring

theorem point_near (h : KnotsNear fl k a b n p) (hfl : RoundsAll fl) (hlt : k.rmin fl < k.rmax fl) {i : Nat} (hi : i ≤ n) :
    |k.grevillePoint fl i - (a + (grevilleShift p + i) * ((b - a) / n))| ≤ 64 / 2 ^ 53 * knotScale a b n p := by
  obtain ⟨hL, hH, -, hb, hσ0⟩ := h.scale_pos
  have hn1 : (1 : Rat) ≤ n := by exact_mod_cast h.cells
  have hn0 : (0 : Rat) < n := by linarith
  obtain ⟨d1, d0⟩ := dx_bounds hfl (k := k) (by rw [h.n_eq]; exact h.cells) hlt
  obtain ⟨r1, r2⟩ := abs_le.1 h.rmin_near
  obtain ⟨R1, R2⟩ := abs_le.1 h.rmax_near
  have hA : |a| ≤ knotScale a b n p := by
    have := h.scale_pos.2.2.1 0 (by simp) (by positivity)
    simpa using this
  have hB : ∀ i : Rat, 0 ≤ i → i ≤ n → |a + i * ((b - a) / n)| ≤ knotScale a b n p := fun i h1 h2 =>
    h.scale_pos.2.2.1 i (by have : (0 : Rat) ≤ p := by positivity
                            linarith) (by have : (0 : Rat) ≤ p := by positivity
                                          linarith)
  rw [h.n_eq] at d1
  rw [Knots.grevillePoint, h.p_eq, ← grevilleShift]
  have hsh : 0 ≤ grevilleShift p ∧ grevilleShift p ≤ 1 / 2 := by
    rw [grevilleShift]; split <;> norm_num
  generalize knotScale a b n p = H at hL hH r1 r2 R1 R2 hA hB ⊢
  obtain ⟨d, hd⟩ : ∃ d, d = k.dx fl := ⟨_, rfl⟩
  rw [← hd] at d1 d0 ⊢
  obtain ⟨σ, hσ⟩ : ∃ σ, σ = (b - a) / n := ⟨_, rfl⟩
  rw [← hσ] at hb hσ0 hB ⊢
  obtain ⟨r, hr⟩ : ∃ r, r = k.rmin fl := ⟨_, rfl⟩
  obtain ⟨R, hR⟩ : ∃ R, R = k.rmax fl := ⟨_, rfl⟩
  rw [← hr, ← hR] at d1
  rw [← hr] at r1 r2 ⊢
  rw [← hR] at R1 R2
  obtain ⟨e1, e2⟩ := abs_le.1 d1
  have f1 : |n * d - n * σ| ≤ 28 / 2 ^ 53 * H := by
    rw [hb]
    exact abs_le.2 ⟨by linarith, by linarith⟩
  have hmul : ∀ c : Rat, 0 ≤ c → c ≤ n → |fl (c * d) - c * σ| ≤ 30 / 2 ^ 53 * H := by
    intro c c0 c1
    have g1 : |c * d - c * σ| ≤ 28 / 2 ^ 53 * H := by
      have e : c * d - c * σ = (c / n) * (n * d - n * σ) := by field_simp
      rw [e, abs_mul, abs_of_nonneg (by positivity)]
      calc c / n * |n * d - n * σ| ≤ 1 * |n * d - n * σ| :=
            mul_le_mul_of_nonneg_right ((div_le_one hn0).2 c1) (abs_nonneg _)
        _ ≤ _ := by rw [one_mul]; exact f1
    have g2 := hfl.error (c * d)
    have g3 : c * σ ≤ n * σ := mul_le_mul_of_nonneg_right c1 hσ0.le
    have g4 : 0 ≤ c * σ := by positivity
    obtain ⟨a1, a2⟩ := abs_le.1 g1
    have g5 : |c * d| ≤ 101 / 100 * H := abs_le.2 ⟨by linarith, by linarith⟩
    obtain ⟨b1, b2⟩ := abs_le.1 g2
    exact abs_le.2 ⟨by linarith, by linarith⟩
  obtain ⟨m1, m2⟩ := abs_le.1 (hmul i (by positivity) (by exact_mod_cast hi))
  -- the shift
  have hshift : |fl (grevilleShift p * d) - grevilleShift p * σ| ≤ 16 / 2 ^ 53 * H := by
    have g1 : |grevilleShift p * d - grevilleShift p * σ| ≤ 14 / 2 ^ 53 * H := by
      have e : grevilleShift p * d - grevilleShift p * σ = (grevilleShift p / n) * (n * d - n * σ) := by field_simp
      have g0 : grevilleShift p / n ≤ 1 / 2 := by
        rw [div_le_iff₀ hn0]; linarith [hsh.2]
      rw [e, abs_mul, abs_of_nonneg (div_nonneg hsh.1 hn0.le)]
      calc grevilleShift p / n * |n * d - n * σ| ≤ 1 / 2 * |n * d - n * σ| :=
            mul_le_mul_of_nonneg_right g0 (abs_nonneg _)
        _ ≤ _ := by linarith
    have g2 := hfl.error (grevilleShift p * d)
    have g3 : grevilleShift p * σ ≤ n * σ := mul_le_mul_of_nonneg_right (by linarith [hsh.2]) hσ0.le
    have g4 : 0 ≤ grevilleShift p * σ := mul_nonneg hsh.1 hσ0.le
    obtain ⟨a1, a2⟩ := abs_le.1 g1
    have g5 : |grevilleShift p * d| ≤ 101 / 100 * H := abs_le.2 ⟨by linarith, by linarith⟩
    obtain ⟨b1, b2⟩ := abs_le.1 g2
    exact abs_le.2 ⟨by linarith, by linarith⟩
  obtain ⟨s1, s2⟩ := abs_le.1 hshift
  have z1 := hB (grevilleShift p) hsh.1 (by linarith [hsh.2])
  obtain ⟨z1, z2⟩ := abs_le.1 z1
  have eo := hfl.error (r + fl (grevilleShift p * d))
  have ex := hfl.error (fl (r + fl (grevilleShift p * d)) + fl (i * d))
  obtain ⟨I, hI⟩ : ∃ I, I = fl (i * d) := ⟨_, rfl⟩
  obtain ⟨G, hG⟩ : ∃ G, G = fl (grevilleShift p * d) := ⟨_, rfl⟩
  rw [← hG] at s1 s2 eo ex ⊢
  rw [← hI] at m1 m2 ex ⊢
  obtain ⟨o, ho⟩ : ∃ o, o = fl (r + G) := ⟨_, rfl⟩
  rw [← ho] at eo ex ⊢
  have w1 : |r + G| ≤ 101 / 100 * H := abs_le.2 ⟨by linarith, by linarith⟩
  obtain ⟨o1, o2⟩ := abs_le.1 eo
  have g3 : (i : Rat) * σ ≤ n * σ := mul_le_mul_of_nonneg_right (by exact_mod_cast hi) hσ0.le
  have g4 : 0 ≤ (i : Rat) * σ := by positivity
  have w2 : |o + I| ≤ 202 / 100 * H := abs_le.2 ⟨by linarith, by linarith⟩
  obtain ⟨x1, x2⟩ := abs_le.1 ex
  exact abs_le.2 ⟨by linarith, by linarith⟩

end KnotsNear

/-! ## The points -/

/-- The three kinds of points. -/
theorem mixed_shape (hn : 0 < k.n) {lo up : Closure} (hf : Fits false lo up) {j : Nat}
    (hj : j < unknowns false k.p k.n lo up) :
    (∃ i, i ≤ k.p / 2 ∧ mixedRounded fl k lo up j = lowerPoint fl k i ∧ (mixedPoint k.p k.n lo up j : Rat) = edgePoint k.p i) ∨
    (∃ i, i ≤ k.p / 2 ∧ mixedRounded fl k lo up j = upperPoint fl k i ∧
      (mixedPoint k.p k.n lo up j : Rat) = k.n - edgePoint k.p i) ∨
    ∃ i : Nat, (if k.p % 2 = 0 then i < k.n else i ≤ k.n) ∧ mixedRounded fl k lo up j = k.grevillePoint fl i ∧
      (mixedPoint k.p k.n lo up j : Rat) = grevilleShift k.p + i := by
  have hsplit := unknowns_split (p := k.p) (n := k.n) hf hn
  simp only [mixedRounded, mixedPoint]
  obtain ⟨N, hN⟩ : ∃ N, N = unknowns false k.p k.n lo up := ⟨_, rfl⟩
  rw [← hN] at hj hsplit
  simp only [← hN]
  by_cases g : up = .greville
  · rw [if_pos g] at hsplit
    by_cases c : N - 1 - j ≤ k.p / 2
    · rw [if_pos ⟨g, c⟩, if_pos ⟨g, c⟩]
      exact Or.inr (Or.inl ⟨_, c, rfl, rfl⟩)
    · have q1 : ¬ (up = .greville ∧ N - 1 - j ≤ k.p / 2) := fun x => c x.2
      have q2 : ¬ (up ≠ .greville ∧ j = N - 1) := fun x => x.1 g
      by_cases h : (if lo = .greville then k.p / 2 + 1 else 1) ≤ j
      · simp only [if_neg q1, if_neg q2, if_pos h]
        exact Or.inr (Or.inr ⟨_, by split <;> omega, rfl, rfl⟩)
      · simp only [if_neg q1, if_neg q2, if_neg h]
        by_cases gl : lo = .greville
        · rw [if_pos gl] at h hsplit
          simp only [if_pos gl]
          exact Or.inl ⟨j, by omega, rfl, rfl⟩
        · simp only [if_neg gl]
          exact Or.inr (Or.inr ⟨0, by split <;> omega, rfl, by simp [grevilleShift]⟩)
  · rw [if_neg g] at hsplit
    have q1 : ¬ (up = .greville ∧ N - 1 - j ≤ k.p / 2) := fun x => g x.1
    by_cases c : j = N - 1
    · simp only [if_neg q1]
      rw [if_pos ⟨g, c⟩, if_pos ⟨g, c⟩]
      exact Or.inr (Or.inr ⟨_, by split <;> omega, rfl, rfl⟩)
    · have q2 : ¬ (up ≠ .greville ∧ j = N - 1) := fun x => c x.2
      by_cases h : (if lo = .greville then k.p / 2 + 1 else 1) ≤ j
      · simp only [if_neg q1, if_neg q2, if_pos h]
        exact Or.inr (Or.inr ⟨_, by split <;> omega, rfl, rfl⟩)
      · simp only [if_neg q1, if_neg q2, if_neg h]
        by_cases gl : lo = .greville
        · rw [if_pos gl] at h hsplit
          simp only [if_pos gl]
          exact Or.inl ⟨j, by omega, rfl, rfl⟩
        · simp only [if_neg gl]
          exact Or.inr (Or.inr ⟨0, by split <;> omega, rfl, by simp [grevilleShift]⟩)

/-- The exact positions are multiples of `1 / (2 p)` cells. -/
theorem mixed_multiple {p n : Nat} (hp : 0 < p) (lo up : Closure) (j : Nat) :
    ∃ z : Int, (mixedPoint p n lo up j : Rat) * (2 * p) = z := by
  have hp' : (p : Rat) ≠ 0 := by exact_mod_cast hp.ne'
  have he : ∀ i : Nat, (edgePoint p i : Rat) * (2 * p) = ((i * (i + 1) : Nat) : Int) := by
    intro i
    rw [edgePoint]
    push_cast
    field_simp
  have hs : ∀ i : Nat, ((if p % 2 = 0 then 1 / 2 else 0) + (i : Rat)) * (2 * p) =
      (((if p % 2 = 0 then p else 0) + i * (2 * p) : Nat) : Int) := by
    intro i
    split <;> push_cast <;> ring
  simp only [mixedPoint]
  generalize (if lo = .greville then p / 2 + 1 else 1) = st
  split
  · refine ⟨n * (2 * p) - ((unknowns false p n lo up - 1 - j) * (unknowns false p n lo up - 1 - j + 1) : Nat), ?_⟩
    rw [sub_mul, he, Int.cast_sub]
    push_cast
    ring
  · split
    · exact ⟨_, hs _⟩
    · split
      · exact ⟨_, hs _⟩
      · split
        · exact ⟨_, he _⟩
        · have := hs 0
          rw [Nat.cast_zero, add_zero] at this
          exact ⟨_, this⟩

/-- Two successive exact positions are at least one sixteenth of a cell apart. -/
theorem mixed_gap {p n : Nat} (hp : 0 < p) (hp8 : p ≤ 8) (hn : 0 < n) (hpn : p ≤ 3 ∨ 3 ≤ n) {lo up : Closure}
    (hf : Fits false lo up) {j : Nat} (hj : j + 1 < unknowns false p n lo up) :
    (mixedPoint p n lo up j : Rat) + 1 / 16 ≤ mixedPoint p n lo up (j + 1) := by
  obtain ⟨y, hy⟩ := mixed_multiple (n := n) hp lo up j
  obtain ⟨z, hz⟩ := mixed_multiple (n := n) hp lo up (j + 1)
  have h := mixed_step (K := Rat) hp hp8 hn hpn hf hj
  have hp1 : (0 : Rat) < p := by exact_mod_cast hp
  have hp2 : (p : Rat) ≤ 8 := by exact_mod_cast hp8
  have h1 := mul_lt_mul_of_pos_right h (by linarith : (0 : Rat) < 2 * p)
  rw [hy, hz] at h1
  have h2 : y + 1 ≤ z := by exact_mod_cast h1
  have h3 : (y : Rat) + 1 ≤ z := by exact_mod_cast h2
  rw [← hy, ← hz] at h3
  refine le_of_mul_le_mul_right (a := (2 * p : Rat)) ?_ (by linarith)
  linarith

theorem KnotsNear.mixed_near {a b : Rat} {n p : Nat} (h : KnotsNear fl k a b n p) (hfl : RoundsAll fl)
    (hlt : k.rmin fl < k.rmax fl) (hp : 0 < p) (hp8 : p ≤ 8) {lo up : Closure} (hf : Fits false lo up) {j : Nat}
    (hj : j < unknowns false p n lo up) :
    |mixedRounded fl k lo up j - (a + mixedPoint p n lo up j * ((b - a) / n))| ≤ 64 / 2 ^ 53 * knotScale a b n p := by
  have hH := h.scale_pos.2.1
  have hb := h.scale_pos.2.2.2.1
  have kn := h.n_eq
  have kp := h.p_eq
  have hsh := mixed_shape (fl := fl) (k := k) (by rw [kn]; exact h.cells) hf (j := j) (by rw [kn, kp]; exact hj)
  rw [kn, kp] at hsh
  rcases hsh with ⟨i, hi, e, e'⟩ | ⟨i, hi, e, e'⟩ | ⟨i, hi, e, e'⟩
  · rw [e, e']
    refine (h.lower_near hfl hi hp8 hp).trans ?_
    linarith
  · rw [e, e', sub_mul, hb, show a + (b - a - edgePoint p i * ((b - a) / n)) = b - edgePoint p i * ((b - a) / n) by ring]
    refine (h.upper_near hfl hi hp8 hp).trans ?_
    linarith
  · rw [e, e']
    exact h.point_near hfl hlt (by split at hi <;> omega)

/-- Uniform B-splines that are not periodic, `GREVILLE` closures or degree 1, whatever the rounding: `get_sampling`
returns as many points as there are interpolation unknowns, they are strictly increasing, and each is the exact point up to a
few units of the last place of the largest coordinate of a knot.  The exact points are those of the sampling
of `C37_uniform_greville_partial`.  The hypotheses are those of that theorem, and the size of a cell is at
least `1 / 2^40` of the coordinates. -/
theorem C59_edges_partial (hfl : RoundsAll fl) {p : Nat} (hp : 0 < p) (hp8 : p ≤ 8) {a b : Rat} (hab : a < b) {n : Nat}
    (hn : 0 < n) (hn' : n < 2 ^ 31) (hpn : p ≤ 3 ∨ 3 ≤ n) {lo up : Closure} (hf : Fits false lo up)
    (hres : (|a| + |b|) * n ≤ 2 ^ 40 * (b - a)) {k : Knots} (hk : k = mkKnots fl a b n p) :
    ∃ u s s', UBS.mk' p false a b (BitVec.ofNat 64 n) = .ok u ∧ u.grevilleMixed lo up = .ok s ∧
      k.grevilleMixed fl lo up = .ok s' ∧ s'.size = s.size ∧ s'.size.toNat = unknowns false p n lo up ∧
      ∃ x y : Nat → Rat, (∀ i, i < unknowns false p n lo up →
          s.coordinate (el () i) = .ok (y i) ∧ s'.coordinate (el () i) = .ok (x i) ∧
          |x i - y i| ≤ 64 / 2 ^ 53 * (|a| + |b| + p * ((b - a) / n))) ∧
        ∀ i j, i < j → j < unknowns false p n lo up → x i < x j := by
  have hkn : KnotsNear fl k a b n p := by rw [hk]; exact knots_near hfl hab hn
  obtain ⟨hL, hH, -, hb, hσ0⟩ := hkn.scale_pos
  have hn0 : (0 : Rat) < n := by exact_mod_cast hn
  have hn1 : (n : Rat) ≤ 2 ^ 31 := by exact_mod_cast hn'.le
  have kn := hkn.n_eq
  have kp := hkn.p_eq
  have hd : 0 < b - a := sub_pos.2 hab
  have hHσ : knotScale a b n p ≤ 2 ^ 41 * ((b - a) / n) := by
    have h1 : |a| + |b| ≤ 2 ^ 40 * ((b - a) / n) := by
      rw [← mul_div_assoc, le_div_iff₀ hn0]
      exact hres
    have h2 : (p : Rat) * ((b - a) / n) ≤ 8 * ((b - a) / n) :=
      mul_le_mul_of_nonneg_right (by exact_mod_cast hp8) hσ0.le
    rw [knotScale]
    linarith
  have hlt : k.rmin fl < k.rmax fl := by
    obtain ⟨r1, r2⟩ := abs_le.1 hkn.rmin_near
    obtain ⟨R1, R2⟩ := abs_le.1 hkn.rmax_near
    have : (b - a) / n ≤ b - a := div_le_self hd.le (by exact_mod_cast hn)
    linarith
  have hadd := unknowns_add (p := p) (n := n) hf
  simp only [Bool.false_eq_true, if_false] at hadd
  have hnear := fun j hj => hkn.mixed_near hfl hlt hp hp8 hf (j := j) hj
  have hstep : ∀ j, j + 1 < unknowns false p n lo up → mixedRounded fl k lo up j < mixedRounded fl k lo up (j + 1) := by
    intro j hj
    obtain ⟨a1, a2⟩ := abs_le.1 (hnear j (by omega))
    obtain ⟨b1, b2⟩ := abs_le.1 (hnear (j + 1) hj)
    have := mul_le_mul_of_nonneg_right (mixed_gap hp hp8 hn hpn hf hj) hσ0.le
    linarith
  have hinc := fun i j => strict_of_step hstep i j
  have hyinc : ∀ i j, i < j → j < unknowns false p n lo up →
      a + mixedPoint p n lo up i * ((b - a) / (n : Rat)) < a + mixedPoint p n lo up j * ((b - a) / (n : Rat)) := by
    refine fun i j => strict_of_step (x := fun i => a + mixedPoint p n lo up i * ((b - a) / (n : Rat))) (fun j hj => ?_) i j
    have := mul_lt_mul_of_pos_right (mixed_step (K := Rat) hp hp8 hn hpn hf hj) hσ0
    linarith
  have hsorted : ∀ x : Nat → Rat, (∀ i j, i < j → j < unknowns false p n lo up → x i < x j) →
      isSorted ((List.range (unknowns false p n lo up)).map x) = true := by
    intro x hx
    refine (isSorted_iff _).2 ?_
    intro i j hij hj
    simp only [List.getElem_map, List.getElem_range]
    simp only [List.length_map, List.length_range] at hj
    rcases Nat.lt_or_eq_of_le hij with h | rfl
    · exact (hx i j h hj).le
    · exact le_refl _
  refine ⟨_, ⟨(List.range (unknowns false p n lo up)).map fun j => a + mixedPoint p n lo up j * ((b - a) / (n : Rat)),
    Elem.createReference ()⟩, ⟨(List.range (unknowns false p n lo up)).map (mixedRounded fl k lo up),
    Elem.createReference ()⟩, UBS.mk'_ok hp false hab hn (by omega), ?_, ?_, ?_, ?_, mixedRounded fl k lo up,
    fun j => a + mixedPoint p n lo up j * ((b - a) / (n : Rat)), fun i hi => ⟨?_, ?_, hnear i hi⟩, hinc⟩
  · rw [grevilleMixed_ok hp hab hn (by omega) hf, NonUniform.mk', if_pos (hsorted _ hyinc)]
  · rw [mixedRounded_ok (by omega) (by omega) hf, kn, kp, NonUniform.mk', if_pos (hsorted _ hinc)]
  · simp [NonUniform.size]
  · simp only [NonUniform.size, List.length_map, List.length_range, BitVec.toNat_ofNat]; omega
  · rw [nu_coordinate_ok () _ (by omega) (by simpa using hi)]
    simp
  · rw [nu_coordinate_ok () _ (by omega) (by simpa using hi)]
    simp

/-- The rounded quotient of a rounded product. -/
theorem mul_div_near (hfl : RoundsAll fl) {p : Nat} (hp : 0 < p) (r : Rat) :
    |fl (fl (p * r) / p) - r| ≤ 201 / 100 / 2 ^ 53 * |r| := by
  have hp1 : (0 : Rat) < p := by exact_mod_cast hp
  have e1 := hfl.error (p * r)
  rw [abs_mul, abs_of_pos hp1] at e1
  have g1 : |fl (p * r) / p - r| ≤ 1 / 2 ^ 53 * |r| := by
    rw [show fl (p * r) / p - r = (fl (p * r) - p * r) / p by field_simp, abs_div, abs_of_pos hp1, div_le_iff₀ hp1]
    linarith
  have e2 := hfl.error (fl (p * r) / p)
  have h0 := abs_nonneg r
  have h1 := le_abs_self r
  have h2 := neg_abs_le r
  obtain ⟨a1, a2⟩ := abs_le.1 g1
  have g2 : |fl (p * r) / p| ≤ (1 + 1 / 2 ^ 53) * |r| := abs_le.2 ⟨by linarith, by linarith⟩
  obtain ⟨b1, b2⟩ := abs_le.1 e2
  exact abs_le.2 ⟨by linarith, by linarith⟩

theorem edgePoint_range {p n i : Nat} (hp : 0 < p) (hp8 : p ≤ 8) (hn : 0 < n) (hpn : p ≤ 3 ∨ 3 ≤ n) (hi : i ≤ p / 2)
    (hi0 : 0 < i) : (1 / 16 : Rat) ≤ edgePoint p i ∧ (edgePoint p i : Rat) + 1 / 16 ≤ n := by
  have h1 := edgePoint_le (K := Rat) hp (show 1 ≤ i by omega)
  have h2 := edgePoint_le (K := Rat) hp hi
  have hn1 : (1 : Rat) ≤ n := by exact_mod_cast hn
  have h3 : (1 / 16 : Rat) ≤ edgePoint p 1 := by interval_cases p <;> norm_num [edgePoint]
  have h4 : (edgePoint p (p / 2) : Rat) ≤ 5 / 4 := by interval_cases p <;> norm_num [edgePoint]
  refine ⟨by linarith, ?_⟩
  rcases hpn with h | h
  · have := edgePoint_small3 (K := Rat) hp h
    linarith
  · have : (3 : Rat) ≤ n := by exact_mod_cast h
    linarith

/-- Each of these points is located in a cell of the mesh or, at the upper end, just past the last one, if
the coordinates are at most 40 times the length of the domain.  The last cell number `n` is not excluded:
see `C59_edges_past_the_end`. -/
theorem C59_edges_located_partial (hfl : RoundsNearest fl) {p : Nat} (hp : 0 < p) (hp8 : p ≤ 8) {a b : Rat} (hab : a < b)
    {n : Nat} (hn : 0 < n) (hn' : n + 1 < 2 ^ 31) (hpn : p ≤ 3 ∨ 3 ≤ n) {lo up : Closure} (hf : Fits false lo up)
    (hfar : |a| ≤ 40 * (b - a)) {k : Knots} (hk : k = mkKnots fl a b n p) {s : NonUniform Unit Rat}
    (hs : k.grevilleMixed fl lo up = .ok s) {i : Nat} (hi : i < unknowns false p n lo up) :
    ∃ (x : Rat) (c : Int) (o : Rat), s.coordinate (el () i) = .ok x ∧
      getIcellAndOffset fl k x = .ok (c, o) ∧ 0 ≤ c ∧ c ≤ n ∧ 0 ≤ o ∧ o ≤ 1 := by
  have hfl' := hfl.toRoundsAll
  have hkn : KnotsNear fl k a b n p := by rw [hk]; exact knots_near hfl' hab hn
  obtain ⟨hL, hH, -, hb, hσ0⟩ := hkn.scale_pos
  have hn0 : (0 : Rat) < n := by exact_mod_cast hn
  have hn1 : (n : Rat) ≤ 2 ^ 31 := by exact_mod_cast (by omega : n ≤ 2 ^ 31)
  have kn := hkn.n_eq
  have kp := hkn.p_eq
  have hd : 0 < b - a := sub_pos.2 hab
  have ha0 := abs_nonneg a
  have hbb : |b| ≤ 41 * (b - a) := by
    have h1 := le_abs_self a
    have h2 := neg_abs_le a
    exact abs_le.2 ⟨by linarith, by linarith⟩
  have hdn : (b - a) / n ≤ b - a := div_le_self hd.le (by exact_mod_cast hn)
  have hHL : knotScale a b n p ≤ 89 * (b - a) := by
    have : (p : Rat) * ((b - a) / n) ≤ 8 * ((b - a) / n) := mul_le_mul_of_nonneg_right (by exact_mod_cast hp8) hσ0.le
    rw [knotScale]
    linarith
  have hdσ : b - a ≤ 2 ^ 31 * ((b - a) / n) := by
    have := mul_le_mul_of_nonneg_right hn1 hσ0.le
    linarith
  have hres : |a| * n ≤ 2 ^ 46 * (b - a) := by
    have := mul_le_mul hfar hn1 hn0.le (by linarith)
    linarith
  obtain ⟨hst, hlen, hr⟩ := knots_bounds3 hfl' hab hn (by omega) (p := p) (by omega) hres
  rw [← hk] at hst hlen hr
  obtain ⟨r1, r2⟩ := abs_le.1 hkn.rmin_near
  obtain ⟨R1, R2⟩ := abs_le.1 hkn.rmax_near
  have hlt : k.rmin fl < k.rmax fl := by linarith
  have hL' : (1 - 1 / 2 ^ 40) * (b - a) ≤ k.rmax fl - k.rmin fl := by linarith
  have hrm : |k.rmin fl| ≤ 401 / 10 * (b - a) := by
    have h1 := le_abs_self a
    have h2 := neg_abs_le a
    exact abs_le.2 ⟨by linarith, by linarith⟩
  have hrM : |k.rmax fl| ≤ 411 / 10 * (b - a) := by
    have h1 := le_abs_self b
    have h2 := neg_abs_le b
    exact abs_le.2 ⟨by linarith, by linarith⟩
  -- a point that is almost in the domain
  have hloc : ∀ x : Rat, k.rmin fl - 85 / 2 ^ 53 * (k.rmax fl - k.rmin fl) ≤ x →
      x ≤ k.rmax fl + 85 / 2 ^ 53 * (k.rmax fl - k.rmin fl) →
      ∃ (c : Int) (o : Rat), getIcellAndOffset fl k x = .ok (c, o) ∧ 0 ≤ c ∧ c ≤ n ∧ 0 ≤ o ∧ o ≤ 1 := by
    intro x h1 h2
    have hin := inside_near hfl' hlt h1 h2
    by_cases c1 : x ≤ k.rmin fl
    · rw [getIcellAndOffset, hin, Res.ok_bind, if_pos c1]
      exact ⟨0, 0, rfl, le_refl _, by omega, le_refl _, by norm_num⟩
    · by_cases c2 : k.rmax fl ≤ x
      · rw [getIcellAndOffset, hin, Res.ok_bind, if_neg c1, if_pos c2, kn]
        exact ⟨(n : Int) - 1, 1, rfl, by omega, by omega, by norm_num, le_refl _⟩
      · obtain ⟨c, o, e, h1, h2, h3, h4, -⟩ :=
          C58_uniform_partial hfl' hab hn hn' (p := p) (by omega) hres hk (not_le.1 c1).le (not_le.1 c2).le
        exact ⟨c, o, e, h1, h2, h3, h4⟩
  have hadd := unknowns_add (p := p) (n := n) hf
  simp only [Bool.false_eq_true, if_false] at hadd
  refine ⟨mixedRounded fl k lo up i, ?_⟩
  have hsh := mixed_shape (fl := fl) (k := k) (by omega) hf (j := i) (by rw [kn, kp]; exact hi)
  rw [mixedRounded_ok (by omega) (by omega) hf, kn, kp, NonUniform.mk'] at hs
  split at hs
  · obtain rfl := Res.ok.inj hs
    have hc : (⟨(List.range (unknowns false p n lo up)).map (mixedRounded fl k lo up), Elem.createReference ()⟩ :
        NonUniform Unit Rat).coordinate (el () i) = .ok (mixedRounded fl k lo up i) := by
      rw [nu_coordinate_ok () _ (by omega) (by simpa using hi)]
      simp
    have hnear := hkn.mixed_near hfl' hlt hp hp8 hf (j := i) hi
    obtain ⟨n1, n2⟩ := abs_le.1 hnear
    suffices hx : k.rmin fl - 85 / 2 ^ 53 * (k.rmax fl - k.rmin fl) ≤ mixedRounded fl k lo up i ∧
        mixedRounded fl k lo up i ≤ k.rmax fl + 85 / 2 ^ 53 * (k.rmax fl - k.rmin fl) by
      obtain ⟨c, o, h⟩ := hloc _ hx.1 hx.2
      exact ⟨c, o, hc, h⟩
    have hinner : (1 / 16 : Rat) ≤ mixedPoint p n lo up i → (mixedPoint p n lo up i : Rat) + 1 / 16 ≤ n →
        k.rmin fl - 85 / 2 ^ 53 * (k.rmax fl - k.rmin fl) ≤ mixedRounded fl k lo up i ∧
        mixedRounded fl k lo up i ≤ k.rmax fl + 85 / 2 ^ 53 * (k.rmax fl - k.rmin fl) := by
      intro m1 m2
      have g1 := mul_le_mul_of_nonneg_right m1 hσ0.le
      have g2 := mul_le_mul_of_nonneg_right m2 hσ0.le
      constructor <;> linarith
    rw [kn, kp] at hsh
    rcases hsh with ⟨j, hj, e, e'⟩ | ⟨j, hj, e, e'⟩ | ⟨j, hj, e, e'⟩
    · rcases Nat.eq_zero_or_pos j with rfl | j0
      · rw [e, lowerPoint, flSumFrom, Nat.sub_zero]
        obtain ⟨w1, w2⟩ := abs_le.1 (mul_div_near hfl' (p := k.p) (by omega) (k.rmin fl))
        constructor <;> linarith
      · obtain ⟨q1, q2⟩ := edgePoint_range hp hp8 hn hpn hj j0
        exact hinner (by rw [e']; exact q1) (by rw [e']; exact q2)
    · rcases Nat.eq_zero_or_pos j with rfl | j0
      · rw [e, upperPoint, flSumFrom, Nat.sub_zero]
        obtain ⟨w1, w2⟩ := abs_le.1 (mul_div_near hfl' (p := k.p) (by omega) (k.rmax fl))
        constructor <;> linarith
      · obtain ⟨q1, q2⟩ := edgePoint_range hp hp8 hn hpn hj j0
        exact hinner (by rw [e']; linarith) (by rw [e']; linarith)
    · obtain ⟨q1, q2, -⟩ := point_bounds hfl (k := k) (by omega) (by omega) hst (by rw [kn]; exact hlen) hr (i := j)
        (by rw [kp, kn]; exact hj)
      rw [e]
      constructor <;> linarith
  · cases hs

/-- With the rounding of IEEE 754, the last Greville point can be located past the last cell, although it
stands for the end of the domain: cubic splines with `GREVILLE` closures on 4 cells of `[-0.3, 0.9]`.  There are 7 B-splines;
evaluating the spline at its own interpolation points reads the coefficients 4 to 7. -/
theorem C59_edges_past_the_end : ∃ (k : Knots) (s : NonUniform Unit Rat) (x : Rat),
    k = mkKnots round53 (round53 (-3 / 10)) (round53 (9 / 10)) 4 3 ∧
    k.grevilleMixed round53 .greville .greville = .ok s ∧ s.size = 7 ∧ s.coordinate (el () 6) = .ok x ∧
    x < k.rmax round53 ∧ (do
      let c ← getIcellAndOffset round53 k x
      pure c.1) = .ok (4 : Int) := by
  refine ⟨_, ⟨(List.range 7).map (mixedRounded round53 (mkKnots round53 (round53 (-3 / 10)) (round53 (9 / 10)) 4 3) .greville .greville),
    Elem.createReference ()⟩, mixedRounded round53 (mkKnots round53 (round53 (-3 / 10)) (round53 (9 / 10)) 4 3) .greville .greville 6,
    rfl, ?_⟩
  decide +kernel

/-- With the rounding of IEEE 754, evaluating the B-splines at the last Greville point can abort: cubic splines with
`GREVILLE` closures on 3 cells of `[234.9, 236.3]`. -/
theorem C59_edges_abort : ∃ (k : Knots) (s : NonUniform Unit Rat) (x : Rat),
    k = mkKnots round53 (round53 (2349 / 10)) (round53 (2363 / 10)) 3 3 ∧
    k.grevilleMixed round53 .greville .greville = .ok s ∧ s.coordinate (el () 5) = .ok x ∧
    getIcellAndOffset round53 k x = .abort := by
  refine ⟨_, ⟨(List.range 6).map (mixedRounded round53 (mkKnots round53 (round53 (2349 / 10)) (round53 (2363 / 10)) 3 3) .greville .greville),
    Elem.createReference ()⟩, mixedRounded round53 (mkKnots round53 (round53 (2349 / 10)) (round53 (2363 / 10)) 3 3) .greville .greville 5,
    rfl, ?_⟩
  decide +kernel

example : ∃ u s s', UBS.mk' 3 false (round53 (-3 / 10)) (round53 (9 / 10)) 4 = .ok u ∧
    u.grevilleMixed .greville .hermite = .ok s ∧
    (mkKnots round53 (round53 (-3 / 10)) (round53 (9 / 10)) 4 3).grevilleMixed round53 .greville .hermite = .ok s' ∧
    s'.size.toNat = 6 := by
  obtain ⟨u, s, s', h1, h2, h3, -, h4, -⟩ := C59_edges_partial (p := 3) (n := 4) (a := round53 (-3 / 10)) (b := round53 (9 / 10))
    (lo := .greville) (up := .hermite) round53_all (by norm_num) (by norm_num) (by decide +kernel) (by norm_num) (by norm_num)
    (by norm_num) ⟨by simp, by simp⟩ (by decide +kernel) rfl
  exact ⟨u, s, s', h1, h2, h3, h4⟩

example : ∃ s x c o,
    (mkKnots round53 (round53 (-3 / 10)) (round53 (9 / 10)) 4 3).grevilleMixed round53 .greville .greville = .ok s ∧
    s.coordinate (el () 1) = .ok x ∧
    getIcellAndOffset round53 (mkKnots round53 (round53 (-3 / 10)) (round53 (9 / 10)) 4 3) x = .ok (c, o) := by
  obtain ⟨k, s, -, rfl, hs, -⟩ := C59_edges_past_the_end
  obtain ⟨x, c, o, h1, h2, -⟩ := C59_edges_located_partial (p := 3) (n := 4) (a := round53 (-3 / 10)) (b := round53 (9 / 10))
    (i := 1) round53_nearest (by norm_num) (by norm_num) (by decide +kernel) (by norm_num) (by norm_num)
    (by norm_num) ⟨by simp, by simp⟩ (by decide +kernel) rfl hs (by decide)
  exact ⟨s, x, c, o, hs, h1, h2⟩

end DDC.Props
