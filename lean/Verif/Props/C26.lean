import Verif.Lemmas.Sampling
import Verif.Lemmas.Domain
import Mathlib.Algebra.Order.Ring.Rat

/-!
# C26 — uniform sampling places `n` equally spaced points from `a` to `b`

Real numbers are an ordered field: the theorems are about the exact values, not their roundings.
-/

namespace DDC.Props

open Tup Dom Spec One

set_option linter.unusedSectionVars false

variable {τ K : Type} [DecidableEq τ] [Field K] [LinearOrder K] [IsStrictOrderedRing K]

/-- Specification: the sequence `x` of `n` points goes from `a` to `b` with the constant positive
distance `h`. -/
structure EquallySpaced (x : Nat → K) (n : Nat) (a b h : K) : Prop where
  first : x 0 = a
  last : x (n - 1) = b
  pos : 0 < h
  gap : ∀ k, k + 1 < n → x (k + 1) - x k = h

/-- Such a sequence is strictly increasing. -/
theorem EquallySpaced.mono {x : Nat → K} {n : Nat} {a b h : K} (hx : EquallySpaced x n a b h)
    {i j : Nat} (hij : i < j) (hj : j < n) : x i < x j := by
  induction j, hij using Nat.le_induction with
  | base => have := hx.gap i hj; have := hx.pos; linarith
  | succ j hij ih =>
    have := ih (by omega); have := hx.gap j hj; have := hx.pos
    linarith

theorem step_pos {a b : K} (h : a < b) {n : Nat} (hn : 1 < n) : 0 < (b - a) / ((n - 1 : Nat) : K) := by
  apply div_pos (by linarith)
  exact_mod_cast (by omega : 0 < n - 1)

theorem coordinate_ok (t : τ) (o s : K) {i : Nat} (hi : i < 2 ^ 63) :
    (⟨o, s, Elem.createReference t⟩ : Uniform τ K).coordinate (el t i) = .ok (o + (i : K) * s) := by
  have h : (Elem.createReference t : Elem τ) = el t 0 := rfl
  simp only [Uniform.coordinate, h]
  rw [sub_nat t (Nat.zero_le i)]
  simp only [Res.ok_bind, vec, Vect.value, Nat.sub_zero, toInt_ofNat hi]
  simp

private theorem mk'_ok (t : τ) {o s : K} (h : 0 < s) :
    Uniform.mk' t o s = .ok ⟨o, s, Elem.createReference t⟩ := by
  simp [Uniform.mk', h]

/-- `init(a, b, n)` succeeds and the domain has exactly `n` points, whose coordinates, in the order
of the domain, are equally spaced from `a` to `b`, at the distance reported by `step()`,
`distance_at_left` and `distance_at_right`; `rmin`, `rmax` and `rlength` are `a`, `b` and `b - a`. -/
theorem C26_init (t : τ) (a b : K) (hab : a < b) (n : Nat) (hn : 1 < n) (hn' : n < 2 ^ 63) :
    ∃ u d x, Uniform.init t a b [(t, BitVec.ofNat 64 n)] = .ok (u, d) ∧
      tags d = [t] ∧ Valid d ∧ len t d = n ∧
      EquallySpaced x n a b u.step ∧
      (∀ k, k < n → u.coordinate [(t, BitVec.ofNat 64 (lo t d + k))] = .ok (x k)) ∧
      (∀ e, u.distanceAtLeft e = u.step ∧ u.distanceAtRight e = u.step) ∧
      u.rmin d = .ok a ∧ u.rmax d = .ok b ∧ u.rlength d = .ok (b - a) := by
  set s := (b - a) / ((n - 1 : Nat) : K) with hs
  have hs0 : 0 < s := step_pos hab hn
  have hn1 : ((n - 1 : Nat) : K) ≠ 0 := by
    have : (0 : K) < ((n - 1 : Nat) : K) := by exact_mod_cast (by omega : 0 < n - 1)
    exact ne_of_gt this
  have hlast : a + ((n - 1 : Nat) : K) * s = b := by rw [hs]; field_simp; ring
  have hmin : (⟨a, s, Elem.createReference t⟩ : Uniform τ K).rmin (seg t 0 n) = .ok a := by
    rw [Uniform.rmin, One.front, coordinate_ok t a s (by omega)]; simp
  have hmax : (⟨a, s, Elem.createReference t⟩ : Uniform τ K).rmax (seg t 0 n) = .ok b := by
    rw [Uniform.rmax, back_nat t (by omega), Res.ok_bind, coordinate_ok t a s (by omega), hlast]
  have hlo : lo t (seg t 0 n) = 0 := by rw [seg, lo_ok (One.get t _)]; rfl
  have hhi : hi t (seg t 0 n) = n := by
    rw [seg, hi_ok (One.get t _), BitVec.toNat_ofNat]; omega
  refine ⟨⟨a, s, Elem.createReference t⟩, seg t 0 n, fun k => a + (k : K) * s, ?_, rfl, ?_, ?_,
    ⟨by simp, hlast, hs0, ?_⟩, ?_, fun _ => ⟨rfl, rfl⟩, hmin, hmax, ?_⟩
  · have h1 : decide (1 < ((n : Nat) : Int)) = true := by simpa using hn
    have h0 : (Elem.createReference t : Elem τ) = el t 0 := rfl
    simp only [Uniform.init, hab, decide_true, Res.guardAbort_true, Vect.value, toInt_ofNat hn', h1,
      Res.ok_bind]
    rw [subInt_nat t hn' (by omega), Res.ok_bind]
    simp only [Vect.value, Res.ok_bind, toInt_ofNat (show n - 1 < 2 ^ 63 by omega), Int.cast_natCast]
    rw [mk'_ok t hs0]
    simp only [Res.ok_bind, h0]
    rw [← vec, ofSize_nat]
    simp
  · refine ⟨by simp [seg], fun q hq => ?_⟩
    simp only [seg, tags_cons, tags_nil, List.mem_singleton] at hq
    subst hq
    rw [len, hlo, hhi]; omega
  · rw [len, hlo, hhi]; omega
  · intro k _
    push_cast; ring
  · intro k hk
    rw [hlo, Nat.zero_add]
    exact coordinate_ok t a s (by omega)
  · rw [Uniform.rlength, hmax, hmin]; rfl

/-- The coordinates are strictly increasing, hence determine the element. -/
theorem C26_strict (t : τ) (a b : K) (hab : a < b) (n : Nat) (hn : 1 < n) (hn' : n < 2 ^ 63)
    (u : Uniform τ K) (d : Dom τ) (h : Uniform.init t a b [(t, BitVec.ofNat 64 n)] = .ok (u, d))
    (i j : Nat) (hi : i < n) (hj : j < n) (x y : K)
    (hx : u.coordinate [(t, BitVec.ofNat 64 (lo t d + i))] = .ok x)
    (hy : u.coordinate [(t, BitVec.ofNat 64 (lo t d + j))] = .ok y) :
    (x < y ↔ i < j) ∧ (x = y ↔ i = j) := by
  obtain ⟨u', d', z, h1, _, _, _, h2, h3, _⟩ := C26_init t a b hab n hn hn'
  rw [h] at h1
  obtain ⟨rfl, rfl⟩ := Prod.mk.inj (Res.ok.inj h1)
  rw [h3 i hi] at hx; rw [h3 j hj] at hy
  obtain rfl := Res.ok.inj hx
  obtain rfl := Res.ok.inj hy
  rcases lt_trichotomy i j with hij | rfl | hij
  · have := h2.mono hij hj
    exact ⟨⟨fun _ => hij, fun _ => this⟩, ⟨fun e => absurd e this.ne, fun e => absurd e hij.ne⟩⟩
  · simp
  · have := h2.mono hij hi
    exact ⟨⟨fun e => absurd e (not_lt.2 this.le), fun e => absurd e (not_lt.2 hij.le)⟩,
      ⟨fun e => absurd e this.ne', fun e => absurd e hij.ne'⟩⟩

/-- The assertions: without `a < b`, or with less than two points, the initialisation aborts. -/
theorem C26_requires (t : τ) (a b : K) (n : I64) (h : b ≤ a ∨ n.toInt ≤ 1) :
    Uniform.init t a b [(t, n)] = .abort := by
  by_cases hab : a < b
  · rcases h with h | h
    · exact absurd hab (not_lt.2 h)
    · have : decide (1 < n.toInt) = false := by simpa using h
      simp [Uniform.init, hab, Vect.value, this]
  · simp [Uniform.init, hab]

/-- Five points from 0 to 2. -/
example : ∃ u d, Uniform.init "x" (0 : Rat) 2 [("x", 5)] = .ok (u, d) ∧ u.step = 1 / 2 ∧
    u.coordinate [("x", 3)] = .ok (3 / 2) ∧ u.rmax d = .ok 2 := by
  refine ⟨⟨0, 1 / 2, [("x", 0)]⟩, [("x", (0, 5))], by decide +kernel, rfl, by decide +kernel,
    by decide +kernel⟩

end DDC.Props
