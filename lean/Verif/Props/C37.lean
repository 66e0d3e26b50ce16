import Verif.Lemmas.Points
import Mathlib.Tactic.IntervalCases

/-!
# C37 — interpolation points: specification, and the points of uniform B-splines
-/

namespace DDC.Props

open One Dom Spec

set_option linter.unusedSectionVars false

variable {K : Type} [Field K] [LinearOrder K] [IsStrictOrderedRing K]

/-- Specification: the elements of the domain are `N` points of `[a, b]`, strictly increasing. -/
structure GoodMesh (coord : Elem Unit → Res K) (d : Dom Unit) (N : Nat) (a b : K) : Prop where
  tags : Tup.tags d = [()]
  valid : Spec.Valid d
  count : Spec.len () d = N
  points : ∃ x : Nat → K,
    (∀ k, k < N → coord [((), BitVec.ofNat 64 (Spec.lo () d + k))] = .ok (x k)) ∧
    (∀ i j, i < j → j < N → x i < x j) ∧ ∀ k, k < N → a ≤ x k ∧ x k ≤ b

/-- Specification: number of equations at an edge. -/
def edgeEquations : Closure → Nat → Nat
  | .periodic, _ => 0
  | .hermite, p => p / 2
  | .homogeneousHermite, p => p / 2
  | .greville, _ => 0

/-- Specification: number of unknowns which are not fixed by the edges. -/
def unknowns (per : Bool) (p n : Nat) (lo up : Closure) : Nat :=
  (if per then n else n + p) - edgeEquations lo p - edgeEquations up p

theorem equations_eq (c : Closure) (p : Nat) : c.equations p = edgeEquations c p := by
  cases c <;> rfl

theorem edgeEquations_le (c : Closure) (p : Nat) : 2 * edgeEquations c p ≤ p := by
  cases c <;> simp only [edgeEquations] <;> omega

/-- Two closures that go with the periodicity of the splines. -/
def Fits (per : Bool) (lo up : Closure) : Prop :=
  if per then lo = .periodic ∧ up = .periodic else lo ≠ .periodic ∧ up ≠ .periodic

theorem strict_of_step {x : Nat → K} {N : Nat} (h : ∀ k, k + 1 < N → x k < x (k + 1)) (i j : Nat)
    (hij : i < j) (hj : j < N) : x i < x j := by
  induction j, hij using Nat.le_induction with
  | base => exact h i hj
  | succ j hij ih => exact (ih (by omega)).trans (h j hj)

theorem goodMesh_of {coord : Elem Unit → Res K} {N : Nat} {a b : K} (x : Nat → K) (hN : N < 2 ^ 63)
    (hx : ∀ k, k < N → coord (el () k) = .ok (x k)) (hs : ∀ k, k + 1 < N → x k < x (k + 1))
    (ha : 0 < N → a ≤ x 0) (hb : 0 < N → x (N - 1) ≤ b) : GoodMesh coord (seg () 0 N) N a b := by
  have e0 : Spec.lo () (seg () 0 N) = 0 := by rw [seg, lo_ok (One.get () _)]; rfl
  have e1 : Spec.hi () (seg () 0 N) = N := by
    rw [seg, hi_ok (One.get () _), BitVec.toNat_ofNat]; omega
  have hst := strict_of_step hs
  refine ⟨rfl, ?_, by rw [Spec.len, e0, e1]; rfl, x, fun k hk => ?_, hst, fun k hk => ⟨?_, ?_⟩⟩
  · refine ⟨by simp [seg, Tup.tags], fun p hp => ?_⟩
    rw [Spec.len, e0, e1]
    omega
  · rw [e0, Nat.zero_add]; exact hx k hk
  · rcases Nat.eq_zero_or_pos k with rfl | h
    · exact ha hk
    · exact (ha (by omega)).trans (hst 0 k h hk).le
  · rcases Nat.lt_or_ge k (N - 1) with h | h
    · exact (hst k (N - 1) h (by omega)).le.trans (hb (by omega))
    · rw [show k = N - 1 by omega]; exact hb (by omega)

/-- A mesh from a list of points. -/
theorem goodMesh_list {N : Nat} {a b : K} (x : Nat → K) (hN : N < 2 ^ 63)
    (hs : ∀ k, k + 1 < N → x k < x (k + 1)) (ha : 0 < N → a ≤ x 0) (hb : 0 < N → x (N - 1) ≤ b) :
    ∃ s, NonUniform.mk' () ((List.range N).map x) = .ok s ∧ s.size.toNat = N ∧
      GoodMesh s.coordinate (seg () 0 N) N a b := by
  have hst := strict_of_step hs
  have h1 : isSorted ((List.range N).map x) = true := (isSorted_iff _).2 (by
    intro i j hij hj
    simp only [List.length_map, List.length_range] at hj
    simp only [List.getElem_map, List.getElem_range]
    rcases Nat.lt_or_eq_of_le hij with h | rfl
    · exact (hst i j h hj).le
    · exact le_rfl)
  refine ⟨⟨(List.range N).map x, Elem.createReference ()⟩, by rw [NonUniform.mk', if_pos h1], ?_, ?_⟩
  · simp only [NonUniform.size, List.length_map, List.length_range, BitVec.toNat_ofNat]; omega
  · refine goodMesh_of x hN (fun k hk => ?_) hs ha hb
    rw [nu_coordinate_ok () _ (by omega) (by simpa using hk)]
    simp

/-! ## Uniform B-splines -/

section Uniform

variable {p n : Nat} {per : Bool} {a b : K}

theorem ubs_nbasis : (ubs p per a b n).nbasis = .ok (BitVec.ofNat 64 (if per then n else n + p)) := by
  rw [UBS.nbasis, ubs_ncells, Res.ok_bind]
  cases per
  · rw [show (ubs p false a b n).periodic = false from rfl, show (ubs p false a b n).degree = p from rfl]
    simp only [Bool.false_eq_true, if_false, BitVec.ofNat_add]; rfl
  · rw [show (ubs p true a b n).periodic = true from rfl]
    simp only [if_true]
    exact congrArg Res.ok (by simp)

theorem unknowns_add {per : Bool} {lo up : Closure} (hf : Fits per lo up) :
    unknowns per p n lo up + (edgeEquations lo p + edgeEquations up p) = if per then n else n + p := by
  have h1 := edgeEquations_le lo p
  have h2 := edgeEquations_le up p
  cases per
  · simp only [unknowns, Bool.false_eq_true, if_false]; omega
  · obtain ⟨rfl, rfl⟩ := hf
    simp [unknowns, edgeEquations]

theorem ubs_count {lo up : Closure} (hf : Fits per lo up) :
    (ubs p per a b n).grevilleCount lo up = .ok (BitVec.ofNat 64 (unknowns per p n lo up)) := by
  rw [UBS.grevilleCount, ubs_nbasis, Res.ok_bind, equations_eq, equations_eq,
    show (ubs p per a b n).degree = p from rfl, ← unknowns_add (p := p) (n := n) hf, ofNat_sub (by omega)]
  simp

theorem ubs_grevilleDomain {lo up : Closure} (hf : Fits per lo up) :
    (ubs p per a b n).grevilleDomain lo up = .ok (seg () 0 (unknowns per p n lo up)) := by
  rw [UBS.grevilleDomain, ubs_count hf, Res.ok_bind, ve1_eq, show el1 0 = el () 0 from rfl, ofSize_nat,
    Nat.zero_add]

theorem ubs_dx (hn : 0 < n) (hs : n + 1 + 2 * p < 2 ^ 63) :
    (ubs p per a b n).dx = .ok ((b - a) / (n : K)) := by
  rw [UBS.dx, ubs_rmax hn hs, Res.ok_bind, ubs_rmin hs, Res.ok_bind, ubs_ncells, Res.ok_bind,
    BitVec.toNat_ofNat, Nat.mod_eq_of_lt (by omega)]
  rfl

/-- `shift` -/
theorem ubs_shift : (ubs p per a b n).shift = (if p % 2 = 0 then 1 / 2 else 0 : K) := rfl

theorem ubs_grevilleUniform (hab : a < b) (hn : 0 < n) (hs : n + 1 + 2 * p < 2 ^ 63) :
    (ubs p per a b n).grevilleUniform =
      .ok ⟨a + (if p % 2 = 0 then 1 / 2 else 0 : K) * ((b - a) / (n : K)), (b - a) / (n : K), el () 0⟩ := by
  have h := step_pos hab (show 1 < n + 1 by omega)
  rw [Nat.add_sub_cancel] at h
  rw [UBS.grevilleUniform, ubs_dx hn hs, Res.ok_bind, ubs_rmin hs, Res.ok_bind, Uniform.mk', ubs_shift]
  simp [h]
  rfl

theorem uniform_coordinate (o s : K) {k : Nat} (hk : k < 2 ^ 63) :
    (⟨o, s, el () 0⟩ : Uniform Unit K).coordinate (el () k) = .ok (o + (k : K) * s) :=
  coordinate_ok () o s hk

/-- The bounds of the points without additional ones. -/
theorem wo_bounds (hab : a < b) (hn : 0 < n) {k : Nat}
    (hk : if p % 2 = 0 then k < n else k ≤ n) :
    a ≤ a + ((if p % 2 = 0 then 1 / 2 else 0 : K) + (k : K)) * ((b - a) / (n : K)) ∧
      a + ((if p % 2 = 0 then 1 / 2 else 0 : K) + (k : K)) * ((b - a) / (n : K)) ≤ b := by
  have hn' : (0 : K) < n := by exact_mod_cast hn
  have hs : (0 : K) ≤ (if p % 2 = 0 then 1 / 2 else 0 : K) := by split <;> norm_num
  have hk' : (if p % 2 = 0 then 1 / 2 else 0 : K) + (k : K) ≤ n := by
    split_ifs with h
    · rw [if_pos h] at hk
      have : (k : K) + 1 ≤ n := by exact_mod_cast hk
      linarith
    · rw [if_neg h] at hk
      have : (k : K) ≤ n := by exact_mod_cast hk
      linarith
  have h0 : 0 < (b - a) / (n : K) := div_pos (sub_pos.2 hab) hn'
  have e : (n : K) * ((b - a) / (n : K)) = b - a := by field_simp
  constructor
  · have : (0 : K) ≤ (k : K) := Nat.cast_nonneg k
    have := mul_nonneg (add_nonneg hs this) h0.le
    linarith
  · have := mul_le_mul_of_nonneg_right hk' h0.le
    linarith

/-- When there are derivatives at both edges, or the splines are periodic. -/
theorem unknowns_uniform {lo up : Closure} (hf : Fits per lo up)
    (hu : per = true ∨ edgeEquations lo p ≠ 0 ∧ edgeEquations up p ≠ 0) (hn : 0 < n) :
    ∀ k, k < unknowns per p n lo up → if p % 2 = 0 then k < n else k ≤ n := by
  intro k hk
  cases per
  · obtain ⟨h1, h2⟩ := hu.resolve_left (by simp)
    have e : ∀ c : Closure, edgeEquations c p ≠ 0 → edgeEquations c p = p / 2 := by
      intro c hc; cases c <;> simp_all [edgeEquations]
    simp only [unknowns, Bool.false_eq_true, if_false, e lo h1, e up h2] at hk
    split_ifs <;> omega
  · simp only [unknowns, if_true] at hk
    split_ifs <;> omega

/-- Which sampling is used: uniform exactly when the splines are periodic or there are equations at
both edges. -/
theorem C37_kind (lo up : Closure) :
    (ubs p per a b n).grevilleIsUniform lo up = true ↔
      per = true ∨ edgeEquations lo p ≠ 0 ∧ edgeEquations up p ≠ 0 := by
  simp only [UBS.grevilleIsUniform, equations_eq]
  rw [show (ubs p per a b n).degree = p from rfl, show (ubs p per a b n).periodic = per from rfl]
  simp [or_comm]

/-- The points without additional ones, as a list. -/
theorem ubs_grevilleGrid (hn : 0 < n) (hs : n + 1 + 2 * p < 2 ^ 63) {lo up : Closure} (hf : Fits per lo up) :
    (ubs p per a b n).grevilleGrid lo up = NonUniform.mk' () ((List.range (unknowns per p n lo up)).map
      fun k : Nat => a + ((if p % 2 = 0 then 1 / 2 else 0 : K) + (k : K)) * ((b - a) / (n : K))) := by
  have hle : unknowns per p n lo up ≤ n + p := by
    have := unknowns_add (p := p) (n := n) hf
    split_ifs at this <;> omega
  obtain ⟨pts, e, h1, h2, -⟩ := setLoop_ok
      (f := fun i pts => do
        let a' ← (ubs p per a b n).rmin
        Arr.wr pts i (a' + ((ubs p per a b n).shift + (i : K)) * ((b - a) / (n : K))))
      (pos := id) (v := fun k => a + ((if p % 2 = 0 then 1 / 2 else 0 : K) + (k : K)) * ((b - a) / (n : K)))
      (m := unknowns per p n lo up) (N := unknowns per p n lo up)
      (by
        intro k arr hk hN
        simp only [ubs_rmin hs, Res.ok_bind, ubs_shift]
        rw [Arr.wr_ok (by omega)]; rfl) (fun i j hij _ => by simpa using hij.ne)
      (Arr.const (unknowns per p n lo up) 0) rfl
  have h3 := Arr.toList_ok _ (fun i hi => h2 i (by rw [h1] at hi; exact hi))
  rw [h1] at h3
  rw [UBS.grevilleGrid, ubs_dx hn hs, Res.ok_bind, ubs_count hf, Res.ok_bind, BitVec.toNat_ofNat,
      Nat.mod_eq_of_lt (by omega), e, Res.ok_bind, h3, Res.ok_bind]

/-- Uniform B-splines, periodic or with derivatives at both edges: both kinds of sampling hold exactly
the right number of increasing points of the domain. -/
theorem C37_uniform (p : Nat) (hp : 0 < p) (per : Bool) (a b : K) (hab : a < b) (n : Nat) (hn : 0 < n)
    (hs : n + 1 + 2 * p < 2 ^ 63) (lo up : Closure) (hf : Fits per lo up)
    (hu : per = true ∨ edgeEquations lo p ≠ 0 ∧ edgeEquations up p ≠ 0) :
    ∃ u d s s', UBS.mk' p per a b (BitVec.ofNat 64 n) = .ok u ∧
      u.grevilleIsUniform lo up = true ∧
      u.grevilleDomain lo up = .ok d ∧
      u.grevilleUniform = .ok s ∧ GoodMesh s.coordinate d (unknowns per p n lo up) a b ∧
      u.grevilleGrid lo up = .ok s' ∧ GoodMesh s'.coordinate d (unknowns per p n lo up) a b := by
  have hn' : (0 : K) < n := by exact_mod_cast hn
  have h0 : 0 < (b - a) / (n : K) := div_pos (sub_pos.2 hab) hn'
  have hle : unknowns per p n lo up ≤ n + p := by
    have := unknowns_add (p := p) (n := n) hf
    split_ifs at this <;> omega
  have hbd := unknowns_uniform (n := n) hf hu hn
  have hNs : unknowns per p n lo up < 2 ^ 63 := by omega
  have hstep : ∀ k : Nat, a + ((if p % 2 = 0 then 1 / 2 else 0 : K) + (k : K)) * ((b - a) / (n : K)) <
      a + ((if p % 2 = 0 then 1 / 2 else 0 : K) + ((k + 1 : Nat) : K)) * ((b - a) / (n : K)) := by
    intro k
    push_cast
    nlinarith
  obtain ⟨s', e', -, g'⟩ := goodMesh_list (a := a) (b := b) (N := unknowns per p n lo up)
    (fun k => a + ((if p % 2 = 0 then 1 / 2 else 0 : K) + (k : K)) * ((b - a) / (n : K))) hNs
    (fun k _ => hstep k) (fun h => (wo_bounds hab hn (hbd 0 h)).1)
    (fun h => (wo_bounds hab hn (hbd _ (by omega))).2)
  refine ⟨_, _, _, s', UBS.mk'_ok hp per hab hn hs, (C37_kind lo up).2 hu, ubs_grevilleDomain hf,
    ubs_grevilleUniform hab hn hs, ?_, ?_, g'⟩
  · refine goodMesh_of
      (fun k => a + ((if p % 2 = 0 then 1 / 2 else 0 : K) + (k : K)) * ((b - a) / (n : K))) hNs
      (fun k hk => ?_) (fun k _ => hstep k) (fun h => (wo_bounds hab hn (hbd 0 h)).1)
      (fun h => (wo_bounds hab hn (hbd _ (by omega))).2)
    rw [uniform_coordinate _ _ (by omega)]
    congr 1; ring
  · rw [ubs_grevilleGrid hn hs hf, e']

/-! ### Additional points at the edges -/

/-- Distance of an additional point to its edge, in cells. -/
def edgePoint (p i : Nat) : K := (i : K) * ((i : K) + 1) / (2 * (p : K))

theorem sum_up (i : Nat) : ∑ k ∈ Finset.range i, ((k : K) + 1) = (i : K) * ((i : K) + 1) / 2 := by
  induction i with
  | zero => simp
  | succ i ih => rw [Finset.sum_range_succ, ih]; push_cast; ring

theorem subVec_nat {x i : Nat} (h : i ≤ x) :
    Elem.subVec (el () x) (vec () i) = .ok (el () (x - i)) := by
  simp [Elem.subVec, Tup.opAssign, Tup.modify, el, vec, ofNat_sub h]

theorem ubs_firstSupportKnot {i : Nat} :
    (ubs p per a b n).firstSupportKnot (el () i) = .ok (el () i) := by
  rw [UBS.firstSupportKnot, show (ubs p per a b n).ref = el () 0 from rfl, sub_nat () (Nat.zero_le i),
    Res.ok_bind, show Vect.value (vec () (i - 0)) = .ok (BitVec.ofNat 64 i) from rfl, Res.ok_bind,
    show (ubs p per a b n).knotDom = seg () 0 (n + 1 + p + p) from rfl, One.front, addInt_el,
    Nat.zero_add]

theorem ubs_lastSupportKnot {i : Nat} :
    (ubs p per a b n).lastSupportKnot (el () i) = .ok (el () (i + (p + 1))) := by
  rw [UBS.lastSupportKnot, ubs_firstSupportKnot, Res.ok_bind, show (ubs p per a b n).degree = p from rfl,
    ve1_eq, addVec_nat]

theorem grevilleLower_ok (hp : 0 < p) (hs : n + 1 + 2 * p < 2 ^ 63) {i N : Nat} (hi : i ≤ p / 2)
    (hN : i < N) (pts : Arr K) (hsz : pts.size = N) :
    (ubs p per a b n).grevilleLower i pts =
      .ok (pts.set i (a + edgePoint p i * ((b - a) / (n : K)))) := by
  have hp' : (p : K) ≠ 0 := by exact_mod_cast hp.ne'
  rw [UBS.grevilleLower, ubs_rmin hs, Res.ok_bind, Arr.wr_ok (by omega), Res.ok_bind, el1_eq,
    ubs_lastSupportKnot, Res.ok_bind, ve1_eq, subVec_nat (by omega), Res.ok_bind, ofSize_nat, Res.ok_bind,
    hostForEach1_seg (by omega) (by omega)]
  rw [show i + (p + 1) - i = p + 1 by omega, show p + 1 + i - (p + 1) = i by omega,
    addLoop_ok (g := fun k => Spec.uniformKnot a b n p (p + 1 + k)) ?_ pts (by omega), Res.ok_bind,
    Arr.divBy_ok (by rw [Arr.set_size]; omega) (by rw [Arr.set_val, if_pos rfl]), Arr.set_set]
  · congr 2
    have e : ∀ k : Nat, Spec.uniformKnot a b n p (p + 1 + k) = a + ((k : K) + 1) * ((b - a) / (n : K)) := by
      intro k
      rw [add_assoc, uniformKnot_step, uniformKnot_first]; push_cast; ring
    rw [Finset.sum_congr rfl (fun k _ => e k), Finset.sum_add_distrib, ← Finset.sum_mul, sum_up,
      Finset.sum_const, Finset.card_range, nsmul_eq_mul, edgePoint,
      show (ubs p per a b n).degree = p from rfl, Nat.cast_sub (by omega : i ≤ p)]
    field_simp
    ring
  · intro k arr hk
    rw [ubs_coordinate (by omega), Res.ok_bind]

theorem grevilleUpper_ok (hp : 0 < p) (hn : 0 < n) (hs : n + 1 + 2 * p < 2 ^ 63) {i N : Nat} (hi : i ≤ p / 2)
    (hN : i < N) (hN' : N < 2 ^ 63) (pts : Arr K) (hsz : pts.size = N) :
    (ubs p false a b n).grevilleUpper (BitVec.ofNat 64 N) i pts =
      .ok (pts.set (N - 1 - i) (b - edgePoint p i * ((b - a) / (n : K)))) := by
  have hp' : (p : K) ≠ 0 := by exact_mod_cast hp.ne'
  have hn' : (n : K) ≠ 0 := by exact_mod_cast hn.ne'
  have e1 : ∀ M, i < M → BitVec.ofNat 64 M - 1 - BitVec.ofNat 64 i = BitVec.ofNat 64 (M - 1 - i) := by
    intro M hM
    rw [show (1 : U64) = BitVec.ofNat 64 1 from rfl, ofNat_sub (by omega), ofNat_sub (by omega)]
  have e2 : (BitVec.ofNat 64 (N - 1 - i)).toNat = N - 1 - i := by
    rw [BitVec.toNat_ofNat, Nat.mod_eq_of_lt (by omega)]
  rw [UBS.grevilleUpper]
  simp only [e1 N hN, e2]
  rw [ubs_rmax hn hs, Res.ok_bind, Arr.wr_ok (by omega), Res.ok_bind, ubs_nbasis, Res.ok_bind]
  simp only [Bool.false_eq_true, if_false]
  rw [e1 _ (by omega), el1_eq, ubs_firstSupportKnot, Res.ok_bind,
    show (1 : I64) = BitVec.ofNat 64 1 from rfl, addInt_el, Res.ok_bind, ve1_eq, ofSize_nat, Res.ok_bind,
    hostForEach1_seg (by omega) (by omega)]
  rw [Nat.add_sub_cancel_left,
    addLoop_ok (g := fun k => Spec.uniformKnot a b n p (n + p - i + k)) ?_ pts (by omega), Res.ok_bind,
    Arr.divBy_ok (by rw [Arr.set_size]; omega) (by rw [Arr.set_val, if_pos rfl]), Arr.set_set]
  · congr 2
    have e : ∀ k, k < i → Spec.uniformKnot a b n p (n + p - i + k) =
        b - ((i : K) - (k : K)) * ((b - a) / (n : K)) := by
      intro k hk
      have h1 := uniformKnot_step (a := a) (b := b) (n := n) (p := p) (n + p - i + k) (i - k)
      rw [show n + p - i + k + (i - k) = p + n by omega, uniformKnot_last hn, Nat.cast_sub hk.le] at h1
      exact eq_sub_of_add_eq h1.symm
    have e' : ∑ k ∈ Finset.range i, ((i : K) - (k : K)) = (i : K) * ((i : K) + 1) / 2 := by
      have := sum_up (K := K) i
      rw [Finset.sum_add_distrib] at this
      rw [Finset.sum_sub_distrib]
      simp only [Finset.sum_const, Finset.card_range, nsmul_eq_mul] at this ⊢
      linear_combination -this
    rw [Finset.sum_congr rfl fun k hk => e k (Finset.mem_range.1 hk)]
    simp only [Finset.sum_sub_distrib, ← Finset.sum_mul, Finset.sum_const, Finset.card_range,
      nsmul_eq_mul, edgePoint] at e' ⊢
    rw [e', show (ubs p false a b n).degree = p from rfl, Nat.cast_sub (by omega : i ≤ p)]
    field_simp
    ring
  · intro k arr hk
    rw [show n + p - 1 - i + 1 + k = n + p - i + k by omega, ubs_coordinate (by omega), Res.ok_bind]

/-- The position, in cells, of the points with additional ones at the edges. -/
def mixedPoint (p n : Nat) (lo up : Closure) (j : Nat) : K :=
  let N := unknowns false p n lo up
  let start := if lo = .greville then p / 2 + 1 else 1
  let shift : K := if p % 2 = 0 then 1 / 2 else 0
  if up = .greville ∧ N - 1 - j ≤ p / 2 then (n : K) - edgePoint p (N - 1 - j)
  else if up ≠ .greville ∧ j = N - 1 then shift + ((n - 1 + p % 2 : Nat) : K)
  else if start ≤ j then shift + ((j - start + 1 : Nat) : K)
  else if lo = .greville then edgePoint p j
  else shift

set_option maxHeartbeats 800000 in
theorem grevilleMixed_ok (hp : 0 < p) (hab : a < b) (hn : 0 < n) (hs : n + 1 + 2 * p < 2 ^ 63)
    {lo up : Closure} (hf : Fits false lo up) :
    (ubs p false a b n).grevilleMixed lo up = NonUniform.mk' () ((List.range (unknowns false p n lo up)).map
      fun j => a + mixedPoint p n lo up j * ((b - a) / (n : K))) := by
  have hadd := unknowns_add (p := p) (n := n) hf
  have hdef : ∀ c : Closure, c ≠ .periodic →
      c = .greville ∧ edgeEquations c p = 0 ∨ c ≠ .greville ∧ edgeEquations c p = p / 2 := by
    intro c hc; cases c <;> simp_all [edgeEquations]
  have hl := hdef lo hf.1
  have hr := hdef up hf.2
  simp only [Bool.false_eq_true, if_false] at hadd
  obtain ⟨N, hN⟩ : ∃ N, N = unknowns false p n lo up := ⟨_, rfl⟩
  obtain ⟨st, hst⟩ : ∃ st, st = if lo = .greville then p / 2 + 1 else 1 := ⟨_, rfl⟩
  obtain ⟨sh, hsh⟩ : ∃ sh : K, sh = if p % 2 = 0 then 1 / 2 else 0 := ⟨_, rfl⟩
  obtain ⟨h, hh⟩ : ∃ h : K, h = (b - a) / (n : K) := ⟨_, rfl⟩
  have hst' : lo = .greville ∧ st = p / 2 + 1 ∨ lo ≠ .greville ∧ st = 1 := by
    by_cases g : lo = .greville
    · exact Or.inl ⟨g, by rw [hst, if_pos g]⟩
    · exact Or.inr ⟨g, by rw [hst, if_neg g]⟩
  rw [← hN] at hadd
  obtain ⟨r, hr1, hr2, hN1⟩ : ∃ r, (up = .greville → r = p / 2) ∧ (up ≠ .greville → r = 0) ∧
      N = st + (n - 1) + p % 2 + r := by
    have h1 : st + edgeEquations lo p = 1 + p / 2 := by
      rcases hl with ⟨g, hl⟩ | ⟨g, hl⟩ <;> rcases hst' with ⟨g'', hst'⟩ | ⟨g'', hst'⟩ <;>
        first | contradiction | omega
    rcases hr with ⟨g, hr⟩ | ⟨g, hr⟩
    · exact ⟨p / 2, fun _ => rfl, fun g' => absurd g g', by omega⟩
    · exact ⟨0, fun g' => absurd g' g, fun _ => rfl, by omega⟩
  clear hl hr hdef
  have hNs : N < 2 ^ 63 := by omega
  have hwo : ∀ k, k < 2 ^ 63 → (⟨a + sh * h, h, el () 0⟩ : Uniform Unit K).coordinate (el () k) =
      .ok (a + (sh + (k : K)) * h) := by
    intro k hk
    rw [uniform_coordinate _ _ hk]; congr 1; ring
  -- the lower edge
  obtain ⟨p1, e1, s1, v1⟩ : ∃ p1, (ubs p false a b n).grevilleLowers ⟨a + sh * h, h, el () 0⟩ lo
      (Arr.const N 0) = .ok p1 ∧ p1.size = N ∧
      ∀ j, j < st → p1.val j = some (a + (if lo = .greville then edgePoint p j else sh) * h) := by
    rcases hst' with ⟨g, e⟩ | ⟨g, e⟩
    · obtain ⟨p1, e1, s1, v1, -⟩ := setLoop_ok (f := (ubs p false a b n).grevilleLower) (pos := id)
        (v := fun i => a + edgePoint p i * h) (m := p / 2 + 1) (N := N)
        (fun k arr hk hsz => by
          rw [hh]; exact grevilleLower_ok hp hs (by omega) (by omega : k < N) arr hsz)
        (fun i j hij _ => by simpa using hij.ne) (Arr.const N 0) rfl
      refine ⟨p1, ?_, s1, fun j hj => ?_⟩
      · rw [UBS.grevilleLowers, if_pos g]; exact e1
      · rw [if_pos g]; exact v1 j (by omega)
    · refine ⟨(Arr.const N 0).set 0 (a + sh * h), ?_, rfl, fun j hj => ?_⟩
      · rw [UBS.grevilleLowers, if_neg g, show el1 0 = el () 0 from rfl, hwo 0 (by omega), Res.ok_bind,
          Arr.wr_ok (by simp only [Arr.const]; omega)]
        simp
      · rw [Arr.set_val, if_pos (by omega), if_neg g]
  -- the central points
  obtain ⟨p2, e2, s2, v2, w2⟩ : ∃ p2, (ubs p false a b n).grevilleCentral ⟨a + sh * h, h, el () 0⟩ lo p1 =
      .ok p2 ∧ p2.size = N ∧ (∀ k, k < n - 1 → p2.val (st + k) = some (a + (sh + ((k + 1 : Nat) : K)) * h)) ∧
      ∀ j, j < st → p2.val j = p1.val j := by
    obtain ⟨p2, e2, s2, v2, w2⟩ := setLoop_ok (f := fun i (pts : Arr K) => do
        let v ← Elem.sub (el () (1 + i)) (el1 1)
        let k ← Vect.addSize v (BitVec.ofNat 64 st)
        let k ← Vect.value k
        let x ← (⟨a + sh * h, h, el () 0⟩ : Uniform Unit K).coordinate (el () (1 + i))
        Arr.wr pts k.toNat x) (pos := fun k => st + k)
      (v := fun k => a + (sh + ((k + 1 : Nat) : K)) * h) (m := n - 1) (N := N)
      (fun k arr hk hsz => by
        simp only [show el1 1 = el () 1 from rfl]
        rw [sub_nat () (by omega), Res.ok_bind, Nat.add_sub_cancel_left,
          show Vect.addSize (vec () k) (BitVec.ofNat 64 st) =
            .ok [((), BitVec.ofNat 64 k + BitVec.ofNat 64 st)] from rfl, Res.ok_bind, ← BitVec.ofNat_add,
          show Vect.value [((), BitVec.ofNat 64 (k + st))] = .ok (BitVec.ofNat 64 (k + st)) from rfl,
          Res.ok_bind, hwo _ (by omega), Res.ok_bind, BitVec.toNat_ofNat, Nat.mod_eq_of_lt (by omega),
          Arr.wr_ok (by omega), Nat.add_comm k st, Nat.add_comm 1 k])
      (fun i j hij _ => by simp; omega) p1 s1
    refine ⟨p2, ?_, s2, v2, fun j hj => w2 j (fun i _ => by omega)⟩
    rw [UBS.grevilleCentral, ubs_ncells, Res.ok_bind, show (1 : U64) = BitVec.ofNat 64 1 from rfl,
      ← BitVec.ofNat_add, show (2 : U64) = BitVec.ofNat 64 2 from rfl, ofNat_sub (by omega)]
    dsimp only
    rw [el1_eq, ve1_eq, ofSize_nat, Res.ok_bind, hostForEach1_seg (by omega) (by omega), Nat.add_sub_cancel_left,
      show n + 1 - 2 = n - 1 by omega]
    simp only [show (ubs p false a b n).degree = p from rfl, ← hst]
    exact e2
  -- the upper edge
  obtain ⟨p3, e3, s3, v3, w3, x3⟩ : ∃ p3, (ubs p false a b n).grevilleUppers ⟨a + sh * h, h, el () 0⟩ up
      (BitVec.ofNat 64 N) p2 = .ok p3 ∧ p3.size = N ∧
      (up = .greville → ∀ i, i ≤ p / 2 → p3.val (N - 1 - i) = some (b - edgePoint p i * h)) ∧
      (up ≠ .greville → p3.val (N - 1) = some (a + (sh + ((n - 1 + p % 2 : Nat) : K)) * h)) ∧
      ∀ j, j < N → (if up = .greville then p / 2 < N - 1 - j else j ≠ N - 1) → p3.val j = p2.val j := by
    by_cases g : up = .greville
    · obtain ⟨p3, e3, s3, v3, w3⟩ := setLoop_ok
        (f := (ubs p false a b n).grevilleUpper (BitVec.ofNat 64 N)) (pos := fun i => N - 1 - i)
        (v := fun i => b - edgePoint p i * h) (m := p / 2 + 1) (N := N)
        (fun k arr hk hsz => by
          rw [hh]
          have := hr1 g
          exact grevilleUpper_ok hp hn hs (by omega) (by omega) hNs arr hsz)
        (fun i j hij hj => by have := hr1 g; omega) p2 s2
      refine ⟨p3, by rw [UBS.grevilleUppers, if_pos g]; exact e3, s3, fun _ i hi => v3 i (by omega),
        fun g' => absurd g g', fun j hj hj' => w3 j fun i hi => ?_⟩
      rw [if_pos g] at hj'
      omega
    · refine ⟨p2.set (N - 1) (a + (sh + ((n - 1 + p % 2 : Nat) : K)) * h), ?_, s2, fun g' => absurd g' g,
        fun _ => by rw [Arr.set_val, if_pos rfl], fun j hj hj' => ?_⟩
      · have e4 : (BitVec.ofNat 64 N - 1).toNat = N - 1 := by
          rw [show (1 : U64) = BitVec.ofNat 64 1 from rfl, ofNat_sub (by omega), BitVec.toNat_ofNat,
            Nat.mod_eq_of_lt (by omega)]
        rw [UBS.grevilleUppers, if_neg g, ubs_ncells, Res.ok_bind, show (ubs p false a b n).degree = p from rfl,
          show (1 : U64) = BitVec.ofNat 64 1 from rfl, ofNat_sub (by omega), ← BitVec.ofNat_add, el1_eq,
          hwo _ (by omega), Res.ok_bind, ← show (1 : U64) = BitVec.ofNat 64 1 from rfl, e4,
          Arr.wr_ok (by omega)]
      · rw [if_neg g] at hj'
        rw [Arr.set_val, if_neg hj']
  have hlist := Arr.toList_ok (a := p3) (fun j => a + mixedPoint p n lo up j * h) (fun j hj => by
    rw [s3] at hj
    have hb : b = a + (n : K) * h := by
      have : (n : K) ≠ 0 := by exact_mod_cast hn.ne'
      rw [hh]; field_simp; ring
    simp only [mixedPoint, ← hN, ← hst, ← hsh]
    by_cases g : up = .greville
    · by_cases c : N - 1 - j ≤ p / 2
      · rw [if_pos ⟨g, c⟩]
        have := v3 g (N - 1 - j) c
        rw [show N - 1 - (N - 1 - j) = j by omega] at this
        rw [this, hb]; congr 1; ring
      · rw [if_neg (fun x => c x.2), if_neg (fun x => x.1 g), x3 j hj (by rw [if_pos g]; omega)]
        by_cases c' : st ≤ j
        · rw [if_pos c']
          have := v2 (j - st) (by first | (have := hr1 g; omega) | (have := hr2 g; omega))
          rw [show st + (j - st) = j by omega] at this
          exact this
        · rw [if_neg c', w2 j (by omega), v1 j (by omega)]
    · rw [if_neg (fun x => g x.1)]
      by_cases c : j = N - 1
      · rw [if_pos ⟨g, c⟩, c, w3 g]
      · rw [if_neg (fun x => c x.2), x3 j hj (by rw [if_neg g]; exact c)]
        by_cases c' : st ≤ j
        · rw [if_pos c']
          have := v2 (j - st) (by first | (have := hr1 g; omega) | (have := hr2 g; omega))
          rw [show st + (j - st) = j by omega] at this
          exact this
        · rw [if_neg c', w2 j (by omega), v1 j (by omega)])
  rw [s3] at hlist
  have hg : decide (0 < edgeEquations lo p + edgeEquations up p →
      BitVec.ofNat 64 (edgeEquations lo p + edgeEquations up p) ≤ BitVec.ofNat 64 (n + p)) = true := by
    refine decide_eq_true fun _ => ?_
    rw [BitVec.le_def, BitVec.toNat_ofNat, BitVec.toNat_ofNat, Nat.mod_eq_of_lt (by omega),
      Nat.mod_eq_of_lt (by omega)]
    omega
  rw [UBS.grevilleMixed, ubs_grevilleUniform hab hn hs, Res.ok_bind, ubs_nbasis, Res.ok_bind, equations_eq,
    equations_eq, show (ubs p false a b n).degree = p from rfl]
  simp only [Bool.false_eq_true, if_false]
  rw [hg, Res.guardAbort_true, Res.ok_bind, ubs_count hf, Res.ok_bind, ← hN, BitVec.toNat_ofNat,
    Nat.mod_eq_of_lt (show N < 2 ^ 64 by omega), ← hsh, ← hh, e1, Res.ok_bind, e2, Res.ok_bind, e3, Res.ok_bind, hlist,
    Res.ok_bind]

/-- The number of points, from the two edges. -/
theorem unknowns_split {lo up : Closure} (hf : Fits false lo up) (hn : 0 < n) :
    unknowns false p n lo up = (if lo = .greville then p / 2 + 1 else 1) + (n - 1) + p % 2 +
      (if up = .greville then p / 2 else 0) := by
  have hadd := unknowns_add (p := p) (n := n) hf
  simp only [Bool.false_eq_true, if_false] at hadd
  have hdef : ∀ c : Closure, c ≠ .periodic →
      edgeEquations c p = if c = .greville then 0 else p / 2 := by
    intro c hc; cases c <;> simp_all [edgeEquations]
  rw [hdef lo hf.1, hdef up hf.2] at hadd
  split_ifs at hadd ⊢ <;> omega

theorem edgePoint_lt (hp : 0 < p) {i j : Nat} (hij : i < j) : (edgePoint p i : K) < edgePoint p j := by
  have hp' : (0 : K) < 2 * (p : K) := by have : (0 : K) < p := by exact_mod_cast hp
                                         linarith
  have h1 : (i : K) < j := by exact_mod_cast hij
  have h2 : (0 : K) ≤ i := Nat.cast_nonneg i
  rw [edgePoint, edgePoint]
  gcongr

theorem edgePoint_le (hp : 0 < p) {i j : Nat} (hij : i ≤ j) : (edgePoint p i : K) ≤ edgePoint p j := by
  rcases Nat.lt_or_eq_of_le hij with h | rfl
  · exact (edgePoint_lt hp h).le
  · exact le_rfl

theorem edgePoint_zero : (edgePoint p 0 : K) = 0 := by simp [edgePoint]

theorem edgePoint_small (hp : 0 < p) (hp8 : p ≤ 8) :
    (edgePoint p (p / 2) : K) < (if p % 2 = 0 then 1 / 2 else 0) + 1 := by
  interval_cases p <;> norm_num [edgePoint]

theorem edgePoint_small3 (hp : 0 < p) (hp3 : p ≤ 3) : (edgePoint p (p / 2) : K) ≤ 1 / 2 := by
  interval_cases p <;> norm_num [edgePoint]

section Mixed

variable {lo up : Closure} {j : Nat}

theorem mixed_upper (h : up = .greville) (hj : unknowns false p n lo up - 1 - j ≤ p / 2) :
    (mixedPoint p n lo up j : K) = (n : K) - edgePoint p (unknowns false p n lo up - 1 - j) := by
  simp only [mixedPoint]; rw [if_pos ⟨h, hj⟩]

theorem mixed_last (h : up ≠ .greville) (hj : j = unknowns false p n lo up - 1) :
    (mixedPoint p n lo up j : K) = (if p % 2 = 0 then 1 / 2 else 0) + ((n - 1 + p % 2 : Nat) : K) := by
  simp only [mixedPoint]; rw [if_neg (fun x => h x.1), if_pos ⟨h, hj⟩]

theorem mixed_mid (hj : if up = .greville then p / 2 < unknowns false p n lo up - 1 - j else
      j ≠ unknowns false p n lo up - 1) (h : (if lo = .greville then p / 2 + 1 else 1) ≤ j) :
    (mixedPoint p n lo up j : K) = (if p % 2 = 0 then 1 / 2 else 0) +
      ((j - (if lo = .greville then p / 2 + 1 else 1) + 1 : Nat) : K) := by
  simp only [mixedPoint]
  by_cases g : up = .greville
  · rw [if_pos g] at hj
    rw [if_neg (fun x => by have := x.2; omega), if_neg (fun x => x.1 g), if_pos h]
  · rw [if_neg g] at hj
    rw [if_neg (fun x => g x.1), if_neg (fun x => hj x.2), if_pos h]

theorem mixed_low (hj : if up = .greville then p / 2 < unknowns false p n lo up - 1 - j else
      j ≠ unknowns false p n lo up - 1) (h : j < if lo = .greville then p / 2 + 1 else 1) :
    (mixedPoint p n lo up j : K) = if lo = .greville then edgePoint p j else
      (if p % 2 = 0 then 1 / 2 else 0) := by
  simp only [mixedPoint]
  by_cases g : up = .greville
  · rw [if_pos g] at hj
    rw [if_neg (fun x => by have := x.2; omega), if_neg (fun x => x.1 g), if_neg (by omega)]
  · rw [if_neg g] at hj
    rw [if_neg (fun x => g x.1), if_neg (fun x => hj x.2), if_neg (by omega)]

theorem mixed_inner (h1 : if up = .greville then p / 2 < unknowns false p n lo up - 1 - j else
        j ≠ unknowns false p n lo up - 1)
      (h2 : if up = .greville then p / 2 < unknowns false p n lo up - 1 - (j + 1) else
        j + 1 ≠ unknowns false p n lo up - 1)
      (hE : (edgePoint p (p / 2) : K) < (if p % 2 = 0 then 1 / 2 else 0) + 1)
      (hlt : ∀ i, (edgePoint p i : K) < edgePoint p (i + 1)) :
      (mixedPoint p n lo up j : K) < mixedPoint p n lo up (j + 1) := by
    by_cases d : (if lo = .greville then p / 2 + 1 else 1) ≤ j
    · rw [mixed_mid h1 d, mixed_mid h2 (by omega)]
      have : ((j - (if lo = .greville then p / 2 + 1 else 1) + 1 : Nat) : K) <
          ((j + 1 - (if lo = .greville then p / 2 + 1 else 1) + 1 : Nat) : K) := by
        exact_mod_cast (by omega)
      linarith
    · rw [mixed_low h1 (by omega)]
      by_cases d' : (if lo = .greville then p / 2 + 1 else 1) ≤ j + 1
      · rw [mixed_mid h2 d',
          show (j + 1 - (if lo = .greville then p / 2 + 1 else 1) + 1 : Nat) = 1 by omega]
        by_cases gl : lo = .greville
        · rw [if_pos gl] at d d' ⊢
          rw [show j = p / 2 by omega]; push_cast; exact hE
        · rw [if_neg gl]; push_cast; linarith
      · rw [mixed_low h2 (by omega)]
        by_cases gl : lo = .greville
        · rw [if_pos gl, if_pos gl]; exact hlt j
        · rw [if_neg gl] at d'; omega

set_option maxHeartbeats 800000 in
theorem mixed_step (hp : 0 < p) (hp8 : p ≤ 8) (hn : 0 < n) (hpn : p ≤ 3 ∨ 3 ≤ n) (hf : Fits false lo up)
    (hj : j + 1 < unknowns false p n lo up) :
    (mixedPoint p n lo up j : K) < mixedPoint p n lo up (j + 1) := by
  have hN := unknowns_split (p := p) hf hn
  have hE := edgePoint_small (K := K) hp hp8
  have hE3 := edgePoint_small3 (K := K) (p := p) hp
  have hlt : ∀ i, (edgePoint p i : K) < edgePoint p (i + 1) := fun i => edgePoint_lt hp (Nat.lt_succ_self i)
  by_cases gu : up = .greville
  · rw [if_pos gu] at hN
    rcases Nat.lt_trichotomy (unknowns false p n lo up - 1 - j) (p / 2 + 1) with c | c | c
    · rw [mixed_upper gu (by omega), mixed_upper gu (by omega),
        show unknowns false p n lo up - 1 - j = unknowns false p n lo up - 1 - (j + 1) + 1 by omega]
      have := hlt (unknowns false p n lo up - 1 - (j + 1))
      linarith
    · rw [mixed_upper gu (by omega : unknowns false p n lo up - 1 - (j + 1) ≤ p / 2),
        show unknowns false p n lo up - 1 - (j + 1) = p / 2 by omega]
      have hc : if up = .greville then p / 2 < unknowns false p n lo up - 1 - j else
        j ≠ unknowns false p n lo up - 1 := by rw [if_pos gu]; omega
      by_cases d : (if lo = .greville then p / 2 + 1 else 1) ≤ j
      · rw [mixed_mid hc d]
        rcases Nat.mod_two_eq_zero_or_one p with h | h
        · rw [if_pos h] at hE ⊢
          rw [show (j - (if lo = .greville then p / 2 + 1 else 1) + 1 : Nat) = n - 2 by omega,
            Nat.cast_sub (by omega)]
          push_cast; linarith
        · rw [if_neg (by omega)] at hE ⊢
          rw [show (j - (if lo = .greville then p / 2 + 1 else 1) + 1 : Nat) = n - 1 by omega,
            Nat.cast_sub (by omega)]
          push_cast; linarith
      · rw [mixed_low hc (by omega)]
        have hn1 : (1 : K) ≤ n := by exact_mod_cast hn
        by_cases gl : lo = .greville
        · rw [if_pos gl] at hN d ⊢
          have hp3 : p ≤ 3 := by omega
          have h3 := hE3 hp3
          by_cases h1 : n = 1
          · subst h1
            obtain ⟨q, hq⟩ : ∃ q, q = j := ⟨_, rfl⟩
            have : j = p / 2 + p % 2 - 1 := by omega
            subst this
            interval_cases p <;> norm_num [edgePoint]
          · have : (2 : K) ≤ n := by exact_mod_cast (by omega : 2 ≤ n)
            have := edgePoint_le (K := K) hp (show j ≤ p / 2 by omega)
            linarith
        · rw [if_neg gl] at hN d ⊢
          rcases Nat.mod_two_eq_zero_or_one p with h | h
          · rw [if_pos h] at hE ⊢
            have : (2 : K) ≤ n := by exact_mod_cast (by omega : 2 ≤ n)
            linarith
          · rw [if_neg (by omega)] at hE ⊢
            linarith
    · have h1 : if up = .greville then p / 2 < unknowns false p n lo up - 1 - j else
        j ≠ unknowns false p n lo up - 1 := by rw [if_pos gu]; omega
      have h2 : if up = .greville then p / 2 < unknowns false p n lo up - 1 - (j + 1) else
        j + 1 ≠ unknowns false p n lo up - 1 := by rw [if_pos gu]; omega
      exact mixed_inner h1 h2 hE hlt
  · rw [if_neg gu] at hN
    have h1 : if up = .greville then p / 2 < unknowns false p n lo up - 1 - j else
        j ≠ unknowns false p n lo up - 1 := by rw [if_neg gu]; omega
    by_cases c : j + 1 = unknowns false p n lo up - 1
    · rw [mixed_last gu c]
      by_cases d : (if lo = .greville then p / 2 + 1 else 1) ≤ j
      · rw [mixed_mid h1 d]
        have : j - (if lo = .greville then p / 2 + 1 else 1) + 1 < n - 1 + p % 2 := by omega
        have : ((j - (if lo = .greville then p / 2 + 1 else 1) + 1 : Nat) : K) <
          ((n - 1 + p % 2 : Nat) : K) := by exact_mod_cast this
        linarith
      · rw [mixed_low h1 (by omega)]
        by_cases gl : lo = .greville
        · rw [if_pos gl] at hN d ⊢
          by_cases e : 1 ≤ n - 1 + p % 2
          · have e' : (1 : K) ≤ ((n - 1 + p % 2 : Nat) : K) := by exact_mod_cast e
            have := edgePoint_le (K := K) hp (show j ≤ p / 2 by omega)
            linarith
          · have h3 := hE3 (by omega)
            have := edgePoint_lt (K := K) hp (show j < p / 2 by omega)
            rw [if_pos (by omega)]
            have : (0 : K) ≤ ((n - 1 + p % 2 : Nat) : K) := Nat.cast_nonneg _
            linarith
        · rw [if_neg gl] at hN d ⊢
          have e' : (1 : K) ≤ ((n - 1 + p % 2 : Nat) : K) := by exact_mod_cast (by omega : 1 ≤ n - 1 + p % 2)
          linarith
    · have h2 : if up = .greville then p / 2 < unknowns false p n lo up - 1 - (j + 1) else
        j + 1 ≠ unknowns false p n lo up - 1 := by rw [if_neg gu]; exact c
      exact mixed_inner h1 h2 hE hlt
theorem shift_nonneg : (0 : K) ≤ if p % 2 = 0 then 1 / 2 else 0 := by split <;> norm_num

theorem mixed_first (hp : 0 < p) (hn : 0 < n) (hpn : p ≤ 3 ∨ 3 ≤ n) (hf : Fits false lo up) :
    (0 : K) ≤ mixedPoint p n lo up 0 := by
  have hN := unknowns_split (p := p) hf hn
  have hsh := shift_nonneg (K := K) (p := p)
  by_cases gu : up = .greville
  · by_cases c : unknowns false p n lo up - 1 - 0 ≤ p / 2
    · rw [if_pos gu] at hN
      have hlo : (if lo = .greville then p / 2 + 1 else 1) ≥ 1 := by split <;> omega
      rw [mixed_upper gu c]
      have h1 := edgePoint_le (K := K) hp c
      have h3 := edgePoint_small3 (K := K) hp (show p ≤ 3 by omega)
      have : (1 : K) ≤ n := by exact_mod_cast hn
      linarith
    · rw [mixed_low (by rw [if_pos gu]; omega) (by split <;> omega)]
      split
      · rw [edgePoint_zero]
      · exact hsh
  · by_cases c : 0 = unknowns false p n lo up - 1
    · rw [mixed_last gu c]
      have : (0 : K) ≤ ((n - 1 + p % 2 : Nat) : K) := Nat.cast_nonneg _
      linarith
    · rw [mixed_low (by rw [if_neg gu]; exact c) (by split <;> omega)]
      split
      · rw [edgePoint_zero]
      · exact hsh

theorem mixed_end (hn : 0 < n) :
    (mixedPoint p n lo up (unknowns false p n lo up - 1) : K) ≤ n := by
  by_cases gu : up = .greville
  · rw [mixed_upper gu (by omega), Nat.sub_self, edgePoint_zero, sub_zero]
  · rw [mixed_last gu rfl]
    rcases Nat.mod_two_eq_zero_or_one p with h | h
    · rw [if_pos h, h, Nat.add_zero, Nat.cast_sub (by omega)]; push_cast; linarith
    · rw [if_neg (by omega), h, show n - 1 + 1 = n by omega, zero_add]

end Mixed

/-- Uniform B-splines with Greville points at one edge at least, or of degree one.  The statement of the
property is proved for degrees up to 8, with at least 3 cells when the degree is larger than 3; it is
false for larger degrees (`C37_uniform_greville_fails`) and for fewer cells (examples below). -/
theorem C37_uniform_greville_partial (p : Nat) (hp : 0 < p) (hp8 : p ≤ 8) (a b : K) (hab : a < b) (n : Nat)
    (hn : 0 < n) (hpn : p ≤ 3 ∨ 3 ≤ n) (hs : n + 1 + 2 * p < 2 ^ 63) (lo up : Closure)
    (hf : Fits false lo up) (hu : edgeEquations lo p = 0 ∨ edgeEquations up p = 0) :
    ∃ u d s, UBS.mk' p false a b (BitVec.ofNat 64 n) = .ok u ∧
      u.grevilleIsUniform lo up = false ∧
      u.grevilleDomain lo up = .ok d ∧
      u.grevilleMixed lo up = .ok s ∧ s.size.toNat = unknowns false p n lo up ∧
      GoodMesh s.coordinate d (unknowns false p n lo up) a b := by
  have hn' : (0 : K) < n := by exact_mod_cast hn
  have h0 : 0 < (b - a) / (n : K) := div_pos (sub_pos.2 hab) hn'
  have hle : unknowns false p n lo up ≤ n + p := by
    have := unknowns_add (p := p) (n := n) hf
    simp only [Bool.false_eq_true, if_false] at this
    omega
  obtain ⟨s, e, h1, h2⟩ := goodMesh_list (a := a) (b := b) (N := unknowns false p n lo up)
    (fun j => a + mixedPoint p n lo up j * ((b - a) / (n : K))) (by omega)
    (fun k hk => by
      have := mul_lt_mul_of_pos_right (mixed_step (K := K) hp hp8 hn hpn hf hk) h0
      linarith)
    (fun _ => by
      have := mul_nonneg (mixed_first (K := K) hp hn hpn hf) h0.le
      linarith)
    (fun _ => by
      have := mul_le_mul_of_nonneg_right (mixed_end (K := K) (p := p) (lo := lo) (up := up) hn) h0.le
      have e : (n : K) * ((b - a) / (n : K)) = b - a := by field_simp
      linarith)
  refine ⟨_, _, s, UBS.mk'_ok hp false hab hn hs, ?_, ubs_grevilleDomain hf, ?_, h1, h2⟩
  · refine Bool.eq_false_iff.2 fun h => ?_
    rcases (C37_kind lo up).1 h with h | h
    · cases h
    · rcases hu with hu | hu
      · exact h.1 hu
      · exact h.2 hu
  · rw [grevilleMixed_ok hp hab hn hs hf, e]

/-- The property is false for degrees larger than 8 with Greville points at the lower edge: the
constructor throws, or two points coincide. -/
theorem C37_uniform_greville_fails (p : Nat) (hp9 : 9 ≤ p) (a b : K) (hab : a < b) (n : Nat)
    (hn : 3 ≤ n) (hs : n + 1 + 2 * p < 2 ^ 63) (up : Closure) (hup : up ≠ .periodic) (u : UBS K)
    (hu : UBS.mk' p false a b (BitVec.ofNat 64 n) = .ok u) :
    ¬ ∃ d s, u.grevilleDomain .greville up = .ok d ∧ u.grevilleMixed .greville up = .ok s ∧
      GoodMesh s.coordinate d (unknowns false p n .greville up) a b := by
  have hf : Fits false .greville up := ⟨by simp, hup⟩
  have hN := unknowns_split (p := p) (n := n) hf (by omega)
  rw [if_pos rfl] at hN
  have hle : unknowns false p n .greville up ≤ n + p := by
    have := unknowns_add (p := p) (n := n) hf
    simp only [Bool.false_eq_true, if_false] at this
    omega
  have hlt : p / 2 + 1 < unknowns false p n .greville up := by omega
  have hc : ∀ j, j ≤ p / 2 + 1 →
      if up = .greville then p / 2 < unknowns false p n .greville up - 1 - j else
        j ≠ unknowns false p n .greville up - 1 := by
    intro j hj
    split_ifs at hN ⊢ <;> omega
  obtain rfl := ubs_of_mk (by omega) hab (by omega) hs hu
  rintro ⟨d, s, e1, e2, -, -, -, x, h1, h2, -⟩
  rw [ubs_grevilleDomain hf] at e1
  obtain rfl := Res.ok.inj e1
  rw [grevilleMixed_ok (by omega) hab (by omega) hs hf] at e2
  have hs' := (C28_accepts () _).2.1 s e2
  have hpt : ∀ k, k < unknowns false p n .greville up → s.coordinate (el () k) =
      .ok (a + mixedPoint p n .greville up k * ((b - a) / (n : K))) := by
    intro k hk
    rw [NonUniform.mk'] at e2
    split_ifs at e2
    obtain rfl := Res.ok.inj e2
    rw [nu_coordinate_ok () _ (by omega) (by simpa using hk)]
    simp
  have e0 : Spec.lo () (seg () 0 (unknowns false p n .greville up)) = 0 := by
    rw [seg, lo_ok (One.get () _)]; rfl
  rw [e0] at h1
  simp only [Nat.zero_add] at h1
  have hx : ∀ k, k < unknowns false p n .greville up →
      x k = a + mixedPoint p n .greville up k * ((b - a) / (n : K)) := by
    intro k hk
    have := h1 k hk
    rw [← el, hpt k hk] at this
    exact (Res.ok.inj this).symm
  have h3 := h2 (p / 2) (p / 2 + 1) (by omega) hlt
  have hn' : (0 : K) < n := by exact_mod_cast (by omega : 0 < n)
  have h0 : 0 < (b - a) / (n : K) := div_pos (sub_pos.2 hab) hn'
  rw [hx _ (by omega), hx _ hlt, mixed_low (hc _ (by omega)) (by rw [if_pos rfl]; omega),
    mixed_mid (hc _ le_rfl) (by rw [if_pos rfl]), if_pos rfl, if_pos rfl, Nat.sub_self] at h3
  have h4 := lt_of_mul_lt_mul_right (lt_of_add_lt_add_left h3) h0.le
  revert h4
  rw [imp_false, not_lt, edgePoint]
  rcases Nat.mod_two_eq_zero_or_one p with h | h
  · obtain ⟨m, rfl⟩ : ∃ m, p = 2 * m := ⟨p / 2, by omega⟩
    rw [if_pos h, show 2 * m / 2 = m by omega, le_div_iff₀ (by
      have : (0 : K) < ((2 * m : Nat) : K) := by exact_mod_cast (by omega : 0 < 2 * m)
      linarith)]
    have : (5 : K) ≤ m := by exact_mod_cast (by omega : 5 ≤ m)
    push_cast
    nlinarith
  · obtain ⟨m, rfl⟩ : ∃ m, p = 2 * m + 1 := ⟨p / 2, by omega⟩
    rw [if_neg (by omega), show (2 * m + 1) / 2 = m by omega, le_div_iff₀ (by
      have : (0 : K) < ((2 * m + 1 : Nat) : K) := by exact_mod_cast (by omega : 0 < 2 * m + 1)
      linarith)]
    have : (4 : K) ≤ m := by exact_mod_cast (by omega : 4 ≤ m)
    push_cast
    nlinarith

end Uniform

/-! ## Concrete cases -/

/-- Cubic splines on 4 cells with Greville points at both edges. -/
example : ((UBS.mk' 3 false (0 : Rat) 4 4 >>= fun u => u.grevilleMixed .greville .greville) >>=
    fun s => .ok s.points) = .ok [0, 1 / 3, 1, 2, 3, 11 / 3, 4] := by decide +kernel

/-- Quadratic splines on 3 cells, derivatives at the lower edge. -/
example : ((UBS.mk' 2 false (0 : Rat) 3 3 >>= fun u => u.grevilleMixed .hermite .greville) >>=
    fun s => .ok s.points) = .ok [1 / 2, 3 / 2, 5 / 2, 3] := by decide +kernel

/-- One cell and degree 4: two of the five points coincide. -/
example : ((UBS.mk' 4 false (0 : Rat) 1 1 >>= fun u => u.grevilleMixed .greville .greville) >>=
    fun s => .ok s.points) = .ok [0, 1 / 4, 1 / 4, 3 / 4, 1] := by decide +kernel

/-- One cell and degree 5: the points are not sorted, the constructor throws. -/
example : (UBS.mk' 5 false (0 : Rat) 1 1 >>= fun u => u.grevilleMixed .greville .greville) = .throw := by
  decide +kernel

/-- Degree 10: two points coincide. -/
example : ((UBS.mk' 10 false (0 : Rat) 4 4 >>= fun u => u.grevilleMixed .greville .hermite) >>=
    fun s => .ok s.points) = .ok [0, 1 / 10, 3 / 10, 3 / 5, 1, 3 / 2, 3 / 2, 5 / 2, 7 / 2] := by
  decide +kernel

/-- Degree 9: the constructor throws. -/
example : (UBS.mk' 9 false (0 : Rat) 4 4 >>= fun u => u.grevilleMixed .greville .hermite) = .throw := by
  decide +kernel

example : Fits false .greville .hermite := by simp [Fits]
example : Fits true .periodic .periodic := by simp [Fits]
example : unknowns false 3 10 .hermite .greville = 12 := rfl

end DDC.Props
