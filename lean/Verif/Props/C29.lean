import Verif.Lemmas.Sampling
import Verif.Lemmas.Domain
import Mathlib.Algebra.Order.Ring.Rat
import Mathlib.Algebra.Order.Ring.Cast

/-!
# C29 — periodic sampling wraps indices onto one period
-/

namespace DDC.Props

open Tup Dom Spec One

set_option linter.unusedSectionVars false

variable {τ K : Type} [DecidableEq τ] [Field K] [LinearOrder K] [IsStrictOrderedRing K]

theorem toInt32_small {x : U64} (h : x.toNat < 2 ^ 31) : (Periodic.toInt32 x).toInt = x.toNat := by
  have : (Periodic.toInt32 x).toNat = x.toNat := by
    rw [Periodic.toInt32, BitVec.truncate_eq_setWidth, BitVec.toNat_setWidth]; omega
  rw [BitVec.toInt_eq_toNat_cond, this]
  split <;> omega

/-- The value of `coordinate`, for periods up to `2^31` and indices for which the index
computation does not wrap. -/
theorem periodic_coordinate (u : Periodic τ K) (t : τ) (hr : u.ref = el t 0) (i : Nat)
    (h0 : 0 < u.period.toNat) (h1 : u.period.toNat ≤ 2 ^ 31) (hi : i + u.period.toNat / 2 < 2 ^ 64) :
    u.coordinate (el t i) = .ok (u.origin +
      (((((i + u.period.toNat / 2) % u.period.toNat : Nat) : Int) - ((u.period.toNat / 2 : Nat) : Int) : Int)
        : K) * u.step) := by
  have e2 : (u.period / 2).toNat = u.period.toNat / 2 := by
    rw [BitVec.toNat_udiv]; rfl
  have hp : u.period ≠ 0 := by
    intro h; rw [h] at h0; exact absurd h0 (by decide)
  simp only [Periodic.coordinate, hr]
  rw [sub_nat t (Nat.zero_le i)]
  simp only [Res.ok_bind, vec, Vect.addSize, Vect.value, Nat.sub_zero, Periodic.umod, if_neg hp]
  have e3 : ((BitVec.ofNat 64 i + u.period / 2) % u.period).toNat
      = (i + u.period.toNat / 2) % u.period.toNat := by
    rw [BitVec.toNat_umod, BitVec.toNat_add, e2, BitVec.toNat_ofNat]
    congr 1; omega
  have hm := Nat.mod_lt (i + u.period.toNat / 2) h0
  have e4 := toInt32_small (x := (BitVec.ofNat 64 i + u.period / 2) % u.period) (by omega)
  have e5 := toInt32_small (x := u.period / 2) (by omega)
  rw [Periodic.int32Sub, e4, e5, e3, e2, if_pos ⟨by omega, by omega⟩]
  rfl

/-- The multiple of the step by which `coordinate(i)` differs from the origin is the representative
of `i` modulo the period in `[-(n/2), n - n/2)`.  Missing with respect to the claim: periods above
`2^31` and indices within half a period of `2^64`, where it is false (`C29_long_period`, `C29_int_overflow`,
`C29_index_wraps`). -/
theorem C29_coordinate_partial (u : Periodic τ K) (t : τ) (hr : u.ref = [(t, 0)]) (n i : Nat)
    (hn : u.period.toNat = n) (h0 : 0 < n) (h1 : n ≤ 2 ^ 31) (hi : i + n / 2 < 2 ^ 64) :
    ∃ k : Int, u.coordinate [(t, BitVec.ofNat 64 i)] = .ok (u.origin + (k : K) * u.step) ∧
      -((n / 2 : Nat) : Int) ≤ k ∧ k < (n : Int) - (n / 2 : Nat) ∧ (n : Int) ∣ (i : Int) - k := by
  subst hn
  refine ⟨_, periodic_coordinate u t hr i h0 h1 hi, by omega, ?_, ?_⟩
  · have := Nat.mod_lt (i + u.period.toNat / 2) h0
    omega
  · refine ⟨((i + u.period.toNat / 2) / u.period.toNat : Nat), ?_⟩
    have := Nat.div_add_mod (i + u.period.toNat / 2) u.period.toNat
    have h2 : (u.period.toNat : Int) * ((i + u.period.toNat / 2) / u.period.toNat : Nat)
        + ((i + u.period.toNat / 2) % u.period.toNat : Nat) = (i : Int) + (u.period.toNat / 2 : Nat) := by
      exact_mod_cast this
    omega

private theorem repr_unique {n k l : Int} {m : Int} (hk : -m ≤ k ∧ k < n - m) (hl : -m ≤ l ∧ l < n - m)
    (h : n ∣ k - l) : k = l := by
  obtain ⟨c, hc⟩ := h
  have hn : 0 < n := by omega
  have h1 : c < 1 := by
    by_contra h
    have : n * 1 ≤ n * c := Int.mul_le_mul_of_nonneg_left (by omega) hn.le
    omega
  have h2 : -1 < c := by
    by_contra h
    have : n * c ≤ n * (-1) := Int.mul_le_mul_of_nonneg_left (by omega) hn.le
    omega
  have : c = 0 := by omega
  subst this
  omega

/-- `coordinate` identifies exactly the indices that are equal modulo the period. -/
theorem C29_periodic_partial (u : Periodic τ K) (t : τ) (hr : u.ref = [(t, 0)]) (n i j : Nat)
    (hn : u.period.toNat = n) (h0 : 0 < n) (h1 : n ≤ 2 ^ 31) (hs : u.step ≠ 0)
    (hi : i + n / 2 < 2 ^ 64) (hj : j + n / 2 < 2 ^ 64) :
    u.coordinate [(t, BitVec.ofNat 64 i)] = u.coordinate [(t, BitVec.ofNat 64 j)] ↔ i % n = j % n := by
  obtain ⟨k, k1, k2, k3, k4⟩ := C29_coordinate_partial u t hr n i hn h0 h1 hi
  obtain ⟨l, l1, l2, l3, l4⟩ := C29_coordinate_partial u t hr n j hn h0 h1 hj
  have key : (n : Int) ∣ k - l ↔ i % n = j % n := by
    have e1 : (n : Int) ∣ k - l ↔ (n : Int) ∣ (i : Int) - j := by
      have : k - l = ((i : Int) - j) - ((i : Int) - k) + ((j : Int) - l) := by ring
      rw [this]
      constructor
      · intro h
        have := Int.dvd_sub (Int.dvd_add h k4) l4
        have e : (i : Int) - j - (i - k) + (j - l) + (i - k) - (j - l) = (i : Int) - j := by ring
        rwa [e] at this
      · intro h
        exact Int.dvd_add (Int.dvd_sub h k4) l4
    rw [e1, Int.dvd_iff_emod_eq_zero, ← Int.emod_eq_emod_iff_emod_sub_eq_zero]
    constructor
    · intro h
      have h' : ((i % n : Nat) : Int) = ((j % n : Nat) : Int) := by
        rw [Int.natCast_mod, Int.natCast_mod]; exact h
      exact_mod_cast h'
    · intro h
      have h' : ((i % n : Nat) : Int) = ((j % n : Nat) : Int) := by rw [h]
      rw [Int.natCast_mod, Int.natCast_mod] at h'
      exact h'
  rw [k1, l1, ← key]
  constructor
  · intro h
    have h := Res.ok.inj h
    have : (k : K) = l := by
      have := add_left_cancel h
      exact mul_right_cancel₀ hs this
    have : k = l := by exact_mod_cast this
    rw [this]; simp
  · intro h
    rw [repr_unique ⟨k2, k3⟩ ⟨l2, l3⟩ h]

/-- The coordinates taken by one period of indices are exactly the `n` equally spaced values
`origin + k * step`, `-(n/2) ≤ k < n - n/2`. -/
theorem C29_values_partial (u : Periodic τ K) (t : τ) (hr : u.ref = [(t, 0)]) (n : Nat)
    (hn : u.period.toNat = n) (h0 : 0 < n) (h1 : n ≤ 2 ^ 31) (x : K) :
    (∃ i, i < n ∧ u.coordinate [(t, BitVec.ofNat 64 i)] = .ok x) ↔
      ∃ k : Int, -((n / 2 : Nat) : Int) ≤ k ∧ k < (n : Int) - (n / 2 : Nat) ∧
        x = u.origin + (k : K) * u.step := by
  constructor
  · rintro ⟨i, hi, h⟩
    obtain ⟨k, k1, k2, k3, _⟩ := C29_coordinate_partial u t hr n i hn h0 h1 (by omega)
    rw [k1] at h
    exact ⟨k, k2, k3, (Res.ok.inj h).symm⟩
  · rintro ⟨k, k2, k3, rfl⟩
    have hp : 0 ≤ k % (n : Int) := Int.emod_nonneg _ (by omega)
    have hl : k % (n : Int) < n := Int.emod_lt_of_pos _ (by omega)
    refine ⟨(k % n).toNat, by omega, ?_⟩
    obtain ⟨l, l1, l2, l3, l4⟩ := C29_coordinate_partial u t hr n (k % n).toNat hn h0 h1 (by omega)
    rw [Int.toNat_of_nonneg hp] at l4
    have : (n : Int) ∣ k - l := by
      have e : k - l = (k - k % n) + (k % n - l) := by ring
      rw [e]
      exact Int.dvd_add (Int.dvd_self_sub_emod) l4
    rw [l1, repr_unique ⟨k2, k3⟩ ⟨l2, l3⟩ this]

/-- In the first half of the period no wrapping takes place. -/
theorem C29_first_half (u : Periodic τ K) (t : τ) (hr : u.ref = [(t, 0)]) (n i : Nat)
    (hn : u.period.toNat = n) (h1 : n ≤ 2 ^ 31) (hi : i < n - n / 2) :
    u.coordinate [(t, BitVec.ofNat 64 i)] = .ok (u.origin + (i : K) * u.step) := by
  subst hn
  rw [← el, periodic_coordinate u t hr i (by omega) h1 (by omega), Nat.mod_eq_of_lt (by omega)]
  have : (((i + u.period.toNat / 2 : Nat) : Int) - ((u.period.toNat / 2 : Nat) : Int)) = (i : Int) := by
    omega
  rw [this]; simp

/-- `init(a, b, n, n_period)`: the attributes are as given and the domain has `n` points. -/
theorem C29_init (t : τ) (a b : K) (hab : a < b) (n p : Nat) (hn : 1 < n) (hn' : n < 2 ^ 63)
    (hp : 1 < p) (hp' : p < 2 ^ 63) :
    ∃ u d, Periodic.init t a b [(t, BitVec.ofNat 64 n)] [(t, BitVec.ofNat 64 p)] = .ok (u, d) ∧
      u.origin = a ∧ u.step * ((n - 1 : Nat) : K) = b - a ∧ 0 < u.step ∧ u.period.toNat = p ∧
      u.ref = [(t, 0)] ∧ tags d = [t] ∧ lo t d = 0 ∧ hi t d = n ∧
      ∀ e, u.distanceAtLeft e = u.step ∧ u.distanceAtRight e = u.step := by
  have hn1 : (0 : K) < ((n - 1 : Nat) : K) := by exact_mod_cast (by omega : 0 < n - 1)
  have hs : 0 < (b - a) / ((n - 1 : Nat) : K) := div_pos (by linarith) hn1
  refine ⟨⟨a, (b - a) / ((n - 1 : Nat) : K), BitVec.ofNat 64 p, el t 0⟩, seg t 0 n, ?_, rfl, ?_, hs,
    ?_, rfl, rfl, ?_, ?_, fun _ => ⟨rfl, rfl⟩⟩
  · have h1 : decide (1 < ((n : Nat) : Int)) = true := by simpa using hn
    have h2 : decide (1 < ((p : Nat) : Int)) = true := by simpa using hp
    have h0 : (Elem.createReference t : Elem τ) = el t 0 := rfl
    have h3 : decide (0 < BitVec.ofNat 64 p) = true := by
      rw [decide_eq_true_eq, BitVec.lt_def, BitVec.toNat_ofNat]
      show 0 % 2 ^ 64 < _
      omega
    simp only [Periodic.init, hab, decide_true, Res.guardAbort_true, Vect.value, toInt_ofNat hn', h1,
      toInt_ofNat hp', h2, Res.ok_bind]
    rw [subInt_nat t hn' (by omega), Res.ok_bind]
    simp only [Res.ok_bind, toInt_ofNat (show n - 1 < 2 ^ 63 by omega), Int.cast_natCast,
      Periodic.mk', hs, decide_true, Res.guardAbort_true, h3, Res.pure_eq, h0]
    rw [← vec, ofSize_nat]
    simp
  · exact div_mul_cancel₀ _ hn1.ne'
  · rw [BitVec.toNat_ofNat]; omega
  · rw [seg, lo_ok (One.get t _)]; rfl
  · rw [seg, hi_ok (One.get t _), BitVec.toNat_ofNat]; omega

/-- Without `a < b`, or with less than two points or steps in a period, `init` aborts. -/
theorem C29_requires (t : τ) (a b : K) (n p : I64) (h : b ≤ a ∨ n.toInt ≤ 1 ∨ p.toInt ≤ 1) :
    Periodic.init t a b [(t, n)] [(t, p)] = .abort := by
  by_cases hab : a < b
  · by_cases hn : 1 < n.toInt
    · have : decide (1 < p.toInt) = false := by
        rcases h with h | h | h
        · exact absurd hab (not_lt.2 h)
        · omega
        · simpa using h
      simp [Periodic.init, hab, Vect.value, hn, this]
    · simp [Periodic.init, hab, Vect.value, hn]
  · simp [Periodic.init, hab]

/-- Seven points, period five: the indices 3 and 4 have negative coordinates. -/
example : ∃ u d, Periodic.init "x" (0 : Rat) 6 [("x", 7)] [("x", 5)] = .ok (u, d) ∧
    u.coordinate [("x", 2)] = .ok 2 ∧ u.coordinate [("x", 3)] = .ok (-2) ∧
    u.coordinate [("x", 8)] = .ok (-2) := by
  refine ⟨⟨0, 1, 5, [("x", 0)]⟩, [("x", (0, 7))], by decide +kernel, by decide +kernel,
    by decide +kernel, by decide +kernel⟩

/-- The constructor takes exactly the positive steps and the positive numbers of steps in a period; it stores
what it is given. -/
theorem C29_constructor (t : τ) (origin step : K) (period : U64) :
    (0 < step ∧ period ≠ 0 → Periodic.mk' t origin step period = .ok ⟨origin, step, period, [(t, 0)]⟩) ∧
      (step ≤ 0 ∨ period = 0 → Periodic.mk' t origin step period = .abort) := by
  constructor
  · rintro ⟨h1, h2⟩
    have h3 : (0 : U64) < period := by
      rw [BitVec.lt_def]
      have : period.toNat ≠ 0 := fun h => h2 (BitVec.eq_of_toNat_eq h)
      show 0 % 2 ^ 64 < _
      omega
    simp only [Periodic.mk', h1, h3, decide_true, Res.guardAbort_true, Res.ok_bind]
    rfl
  · intro h
    by_cases h1 : 0 < step
    · rcases h with h | rfl
      · exact absurd h1 (not_lt.2 h)
      · simp only [Periodic.mk', h1, decide_true, Res.guardAbort_true, Res.ok_bind]
        rfl
    · simp only [Periodic.mk', h1, decide_false]
      rfl

example : Periodic.mk' "x" (0 : Rat) 1 0 = .abort ∧ Periodic.mk' "x" (0 : Rat) 1 3 = .ok ⟨0, 1, 3, [("x", 0)]⟩ :=
  ⟨(C29_constructor _ _ _ _).2 (.inr rfl), (C29_constructor _ _ _ _).1 ⟨by norm_num, by decide⟩⟩

/-! ## Disagreements of the code with the claim -/

/-- With a period above `2^31`, the computation on `int` is undefined for some indices. -/
theorem C29_int_overflow :
    (⟨0, 1, BitVec.ofNat 64 (2 ^ 32), [("x", 0)]⟩ : Periodic String Rat).coordinate
      [("x", BitVec.ofNat 64 (2 ^ 31))] = .ub := by decide +kernel

/-- The same for every period above `2^31` and below `2^32`. -/
theorem C29_long_period (u : Periodic τ K) (t : τ) (hr : u.ref = [(t, 0)]) (n : Nat) (hn : u.period.toNat = n)
    (h0 : 2 ^ 31 < n) (h1 : n < 2 ^ 32) : u.coordinate [(t, BitVec.ofNat 64 (2 ^ 31 - n / 2))] = .ub := by
  subst hn
  obtain ⟨i, hi⟩ : ∃ i, i = 2 ^ 31 - u.period.toNat / 2 := ⟨_, rfl⟩
  rw [← hi]
  have e2 : (u.period / 2).toNat = u.period.toNat / 2 := by
    rw [BitVec.toNat_udiv]; rfl
  have hp : u.period ≠ 0 := by
    intro h; rw [h] at h0; exact absurd h0 (by decide)
  show u.coordinate (el t i) = .ub
  have hr' : u.ref = el t 0 := hr
  simp only [Periodic.coordinate, hr']
  rw [sub_nat t (Nat.zero_le i)]
  simp only [Res.ok_bind, vec, Vect.addSize, Vect.value, Nat.sub_zero, Periodic.umod, if_neg hp]
  have e3 : ((BitVec.ofNat 64 i + u.period / 2) % u.period).toNat = 2 ^ 31 := by
    rw [BitVec.toNat_umod, BitVec.toNat_add, e2, BitVec.toNat_ofNat]
    rw [show (i % 2 ^ 64 + u.period.toNat / 2) % 2 ^ 64 = 2 ^ 31 by omega]
    exact Nat.mod_eq_of_lt h0
  have e4 : (Periodic.toInt32 ((BitVec.ofNat 64 i + u.period / 2) % u.period)).toInt = -2 ^ 31 := by
    have : (Periodic.toInt32 ((BitVec.ofNat 64 i + u.period / 2) % u.period)).toNat = 2 ^ 31 := by
      rw [Periodic.toInt32, BitVec.truncate_eq_setWidth, BitVec.toNat_setWidth, e3]; rfl
    rw [BitVec.toInt_eq_toNat_cond, this]
    rfl
  have e5 := toInt32_small (x := u.period / 2) (by omega)
  rw [Periodic.int32Sub, e4, e5, e2, if_neg (by omega)]
  rfl

example : (⟨0, 1, BitVec.ofNat 64 (2 ^ 31 + 2), [("x", 0)]⟩ : Periodic String Rat).coordinate
    [("x", BitVec.ofNat 64 (2 ^ 31 - (2 ^ 31 + 2) / 2))] = .ub :=
  C29_long_period _ "x" rfl (2 ^ 31 + 2) (by decide +kernel) (by norm_num) (by norm_num)

/-- Near the end of the index range, the index computation wraps modulo `2^64` and the coordinate
is not the one of an index equal modulo the period. -/
theorem C29_index_wraps :
    (2 ^ 64 - 1) % 3 = 0 % 3 ∧
    (⟨0, 1, 3, [("x", 0)]⟩ : Periodic String Rat).coordinate [("x", BitVec.ofNat 64 (2 ^ 64 - 1))] = .ok (-1) ∧
    (⟨0, 1, 3, [("x", 0)]⟩ : Periodic String Rat).coordinate [("x", 0)] = .ok 0 := by
  refine ⟨by decide, by decide +kernel, by decide +kernel⟩

/-- The domain made by `init(a, b, n, n_period)` need not have coordinates in `[a, b]`: its `rmax`
is not `b` and its `rlength` is negative as soon as the domain exceeds the first half period. -/
theorem C29_rlength_negative :
    ∃ u d, Periodic.init "x" (0 : Rat) 3 [("x", 4)] [("x", 4)] = .ok (u, d) ∧
      u.rmin d = .ok 0 ∧ u.rmax d = .ok (-1) ∧ u.rlength d = .ok (-1) := by
  refine ⟨⟨0, 1, 4, [("x", 0)]⟩, [("x", (0, 4))], by decide +kernel, by decide +kernel,
    by decide +kernel, by decide +kernel⟩

end DDC.Props
