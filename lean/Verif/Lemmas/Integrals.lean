import Verif.Lemmas.Cum
import Verif.Lemmas.NUBS
import Verif.Model.Integrals
import Mathlib.Algebra.BigOperators.Field

/-!
# Integrals of the B-splines: closed forms, and the accesses to the chunk of the results
-/

namespace DDC

set_option linter.unusedSectionVars false

open One Props Polynomial

variable {K : Type} [Field K] [LinearOrder K] [IsStrictOrderedRing K]

namespace Spec

/-- The integral of the B-spline `j` of degree `p` over the `n` cells of the domain. -/
noncomputable def total (t : Nat → K) (p n j : Nat) : K :=
  (t (j + p + 1) - t j) / ((p + 1 : Nat) : K) *
    ((cum t (p + n - 1) (p + 1) j).eval (t (p + n)) - (cum t p (p + 1) j).eval (t p))

section

variable {t : Nat → K} {p n : Nat}

/-- Knots of B-splines with at least one cell, the first and the last being not empty. -/
structure Ends (t : Nat → K) (p n : Nat) : Prop where
  mono : Monotone t
  cells : 0 < n
  first : t p < t (p + 1)
  last : t (p + n - 1) < t (p + n)

theorem total_sum (h : Ends t p n) (j : Nat) :
    ∑ d ∈ Finset.Ico p (p + n), ((prim t p j d).eval (t (d + 1)) - (prim t p j d).eval (t d)) =
      total t p n j := by
  have hn := h.cells
  have e : p + n - 1 + 1 = p + n := by omega
  rw [prim_sum h.mono h.first p j n (c := p + n - 1) (by omega) (by omega) (by rw [e]; exact h.last)
    (by rw [e]), total, prim, prim]
  simp only [eval_mul, eval_C]
  ring

/-- With clamped knots the whole support is inside of the domain. -/
theorem total_clamped (h : Ends t p n) (hcl : ∀ k, k ≤ p → t k = t p ∧ t (p + n + k) = t (p + n))
    {j : Nat} (hj : j < n + p) : total t p n j = (t (j + p + 1) - t j) / ((p + 1 : Nat) : K) := by
  have hn := h.cells
  have e : p + n - 1 + 1 = p + n := by omega
  have h1 := cum_left_clamped (t := t) (c := p) (fun k hk => (hcl k hk).1) (p + 1) j (by omega)
  have h2 := cum_right_clamped (t := t) (c := p + n - 1) (by rw [e]; exact h.last) (p + 1)
    (fun k g1 g2 => by
      obtain ⟨m, rfl⟩ : ∃ m, k = p + n + m := ⟨k - (p + n), by omega⟩
      rw [e, (hcl m (by omega)).2]) (p + 1) j (le_refl _) (by omega)
  rw [e] at h2
  rw [total, h1, h2]
  ring

/-- Knots repeated periodically. -/
def Rep (t : Nat → K) (p n : Nat) : Prop := ∀ k, k ≤ 2 * p → t (k + n) = t k + (t (p + n) - t p)

theorem start_zero {j : Nat} (hj : p ≤ j) : (cum t p (p + 1) j).eval (t p) = 0 :=
  cum_left (p + 1) j ⟨hj, by omega⟩

theorem end_one (h : Ends t p n) {j : Nat} (hj : j < n) :
    (cum t (p + n - 1) (p + 1) j).eval (t (p + n)) = 1 := by
  have e : p + n - 1 + 1 = p + n := by omega
  have := cum_right (t := t) (c := p + n - 1) (p + 1) j
    (by rw [e]; exact lt_of_le_of_lt (h.mono (by omega)) h.last) (by omega) (by omega)
  rwa [e] at this

theorem end_rep (h : Ends t p n) (hr : Rep t p n) {j : Nat} (hj : j < p) :
    (cum t (p + n - 1) (p + 1) (n + j)).eval (t (p + n)) = (cum t p (p + 1) j).eval (t p) := by
  have hn := h.cells
  have e : p + n - 1 + 1 = p + n := by omega
  have h1 := cum_jump h.mono (c := p + n - 1) (c' := p + n) (by omega) (by rw [e]; exact h.last)
    (by rw [e]) (p + 1) (n + j)
  rw [if_neg (by omega), sub_eq_zero] at h1
  have h2 := cum_shift (t := t) (t' := t) (n := n) (s := t (p + n) - t p) p (p + 1) j
    (fun k _ hk => hr k (by omega)) (t p)
  rw [add_sub_cancel] at h2
  rw [h1, Nat.add_comm n j, h2]

/-- The lengths of the supports are repeated. -/
theorem width_rep (hr : Rep t p n) {j : Nat} (hj : j < p) :
    t (n + j + p + 1) - t (n + j) = t (j + p + 1) - t j := by
  have h1 := hr (j + p + 1) (by omega)
  have h2 := hr j (by omega)
  rw [show n + j + p + 1 = j + p + 1 + n by omega, h1, Nat.add_comm n j, h2]
  ring

/-- The integral of a basis function of the periodic splines: the sum over the B-splines it is made
of. -/
theorem total_periodic (h : Ends t p n) (hr : Rep t p n) (P : Nat → Prop) [DecidablePred P]
    (hP : ∀ j, P (n + j) ↔ P j) :
    (∑ j ∈ Finset.range (n + p), if P j then total t p n j else 0) =
      ∑ j ∈ Finset.range n, if P j then (t (j + p + 1) - t j) / ((p + 1 : Nat) : K) else 0 := by
  set f : Nat → K := fun j => (t (j + p + 1) - t j) / ((p + 1 : Nat) : K) with hf
  set E : Nat → K := fun j => (cum t (p + n - 1) (p + 1) j).eval (t (p + n)) with hE
  set S : Nat → K := fun j => (cum t p (p + 1) j).eval (t p) with hS
  have e1 : (∑ j ∈ Finset.range (n + p), if P j then total t p n j else 0) =
      (∑ j ∈ Finset.range (n + p), if P j then f j * E j else 0) -
      ∑ j ∈ Finset.range (n + p), if P j then f j * S j else 0 := by
    rw [← Finset.sum_sub_distrib]
    refine Finset.sum_congr rfl fun j _ => ?_
    by_cases hj : P j
    · rw [if_pos hj, if_pos hj, if_pos hj, ← mul_sub]; rfl
    · rw [if_neg hj, if_neg hj, if_neg hj, sub_zero]
  have e2 : (∑ j ∈ Finset.range (n + p), if P j then f j * E j else 0) =
      (∑ j ∈ Finset.range n, if P j then f j else 0) +
      ∑ j ∈ Finset.range p, if P j then f j * S j else 0 := by
    rw [Finset.sum_range_add]
    congr 1
    · refine Finset.sum_congr rfl fun j hj => ?_
      rw [show E j = 1 from end_one h (Finset.mem_range.1 hj), mul_one]
    · refine Finset.sum_congr rfl fun j hj => ?_
      have hj' := Finset.mem_range.1 hj
      rw [show E (n + j) = S j from end_rep h hr hj']
      have : f (n + j) = f j := by
        simp only [hf]
        rw [width_rep hr hj']
      rw [this]
      exact if_congr (hP j) rfl rfl
  have e3 : (∑ j ∈ Finset.range (n + p), if P j then f j * S j else 0) =
      ∑ j ∈ Finset.range p, if P j then f j * S j else 0 := by
    rw [Nat.add_comm n p, Finset.sum_range_add]
    rw [Finset.sum_eq_zero (s := Finset.range n), add_zero]
    intro j _
    rw [show S (p + j) = 0 from start_zero (by omega), mul_zero, ite_self]
  rw [e1, e2, e3, add_sub_cancel_right]

/-- Sum of the lengths of the supports. -/
theorem width_sum (t : Nat → K) (p N : Nat) {L : K} (h : ∀ k, k ≤ p → t (N + k) - t k = L) :
    ∑ j ∈ Finset.range N, (t (j + p + 1) - t j) / ((p + 1 : Nat) : K) = L := by
  have hp : ((p + 1 : Nat) : K) ≠ 0 := by exact_mod_cast Nat.succ_ne_zero p
  rw [← Finset.sum_div]
  have := sum_diff t (p + 1) N
  simp only [← Nat.add_assoc] at this
  rw [this, Finset.sum_congr rfl (fun k hk => h k (by have := Finset.mem_range.1 hk; omega))]
  simp only [Finset.sum_const, Finset.card_range, nsmul_eq_mul]
  field_simp

end

/-- Equally spaced knots: the partial sums are symmetric. -/
theorem cum_symm {t : Nat → K} {h : K} (h0 : h ≠ 0) (ht : ∀ k j, t (k + j) = t k + (j : K) * h) (c q i j : Nat)
    (hi : i ≤ c) (hj : j ≤ c) (hij : i + j + (q + 1) = c + c) :
    (cum t c (q + 1) i).eval (t c) + (cum t c (q + 1) j).eval (t c) = 1 := by
  have om : ∀ q i, i ≤ c → (omega t q i).eval (t c) = ((c - i : Nat) : K) / ((q + 1 : Nat) : K) := by
    intro q i hi
    obtain ⟨d, rfl⟩ : ∃ d, c = i + d := ⟨c - i, by omega⟩
    have hq : ((q + 1 : Nat) : K) ≠ 0 := by exact_mod_cast Nat.succ_ne_zero q
    rw [omega_eval, Nat.add_assoc, ht i (q + 1), ht i d, Nat.add_sub_cancel_left]
    rw [add_sub_cancel_left, add_sub_cancel_left, mul_div_mul_right _ _ h0]
  have step : ∀ q i, i ≤ c → (cum t c (q + 1) i).eval (t c) =
      ((c - i : Nat) : K) / ((q + 1 : Nat) : K) * (cum t c q i).eval (t c) +
      (1 - ((c - i : Nat) : K) / ((q + 1 : Nat) : K)) * (cum t c q (i + 1)).eval (t c) := by
    intro q i hi
    rw [cum]
    simp only [eval_add, eval_mul, eval_sub, eval_one, om q i hi]
  induction q generalizing i j with
  | zero =>
    rw [step 0 i hi, step 0 j hj]
    rcases (by omega : (i = c ∧ j + 1 = c) ∨ (i + 1 = c ∧ j = c)) with ⟨rfl, h2⟩ | ⟨h2, rfl⟩
    · rw [cum_zero t i 0 (i + 1) (by omega), cum_one t i 0 (j + 1) (by omega), cum_one t i 0 j (by omega),
        show i - j = 1 by omega]
      simp
    · rw [cum_zero t j 0 (j + 1) (by omega), cum_one t j 0 (i + 1) (by omega), cum_one t j 0 i (by omega),
        show j - i = 1 by omega]
      simp
  | succ q ih =>
    have hq : ((q + 1 + 1 : Nat) : K) ≠ 0 := by exact_mod_cast Nat.succ_ne_zero (q + 1)
    -- the pairs `(i, j + 1)` and `(i + 1, j)`
    have pair : ∀ i j, i ≤ c → j ≤ c → i + j + (q + 1 + 1) = c + c →
        (cum t c (q + 1) i).eval (t c) + (cum t c (q + 1) (j + 1)).eval (t c) = 1 := by
      intro i j hi hj hij
      by_cases hj' : j + 1 ≤ c
      · exact ih i (j + 1) hi hj' (by omega)
      · rw [cum_zero t c (q + 1) (j + 1) (by omega), cum_one t c (q + 1) i (by omega)]
        simp
    have p1 := pair i j hi hj hij
    have p2 := pair j i hj hi (by omega)
    rw [step (q + 1) i hi, step (q + 1) j hj]
    have e : ((c - j : Nat) : K) / ((q + 1 + 1 : Nat) : K) =
        1 - ((c - i : Nat) : K) / ((q + 1 + 1 : Nat) : K) := by
      have : ((c - i : Nat) : K) + ((c - j : Nat) : K) = ((q + 1 + 1 : Nat) : K) := by
        rw [← Nat.cast_add]; congr 1; omega
      rw [eq_sub_iff_add_eq, ← add_div, add_comm, this, div_self hq]
    rw [e]
    linear_combination ((c - i : Nat) : K) / ((q + 1 + 1 : Nat) : K) * p1 +
      (1 - ((c - i : Nat) : K) / ((q + 1 + 1 : Nat) : K)) * p2

/-- A partial sum is the sum of the following pieces. -/
theorem cum_eq_sum {t : Nat → K} (ht : Monotone t) {c : Nat} (hc : t c < t (c + 1)) (q i k : Nat)
    (h : c < i + k) : cum t c q i = ∑ r ∈ Finset.range k, piece t c q (i + r) := by
  induction k generalizing i with
  | zero => rw [cum_zero t c q i (by omega), Finset.sum_range_zero]
  | succ k ih =>
    rw [Finset.sum_range_succ', Nat.add_zero, ← cum_sub ht hc q i, ih (i + 1) (by omega)]
    have : ∀ r, i + 1 + r = i + (r + 1) := fun r => by omega
    simp only [this]
    ring

end Spec

/-! ## Accesses to the chunk -/

namespace One

theorem contains_nat {x y k : Nat} (hx : x < 2 ^ 64) (hy : y < 2 ^ 64) (hk : k < 2 ^ 64) :
    Dom.contains (seg () x y) [el () k] = .ok (decide (x ≤ k ∧ k < y)) := by
  have h1 : (BitVec.ofNat 64 k < BitVec.ofNat 64 x) ↔ k < x := by
    rw [BitVec.lt_def, BitVec.toNat_ofNat, BitVec.toNat_ofNat, Nat.mod_eq_of_lt hx, Nat.mod_eq_of_lt hk]
  have h2 : (BitVec.ofNat 64 y ≤ BitVec.ofNat 64 k) ↔ y ≤ k := by
    rw [BitVec.le_def, BitVec.toNat_ofNat, BitVec.toNat_ofNat, Nat.mod_eq_of_lt hy, Nat.mod_eq_of_lt hk]
  have e : Dom.contains (seg () x y) [el () k] =
      .ok (Dom.containsLoop [BitVec.ofNat 64 k] [(BitVec.ofNat 64 x, BitVec.ofNat 64 y)]) := by
    simp [Dom.contains, seg, el, Tup.tags, Tup.vals, Tup.ofTuples, One.take]
  rw [e]
  congr 1
  simp only [Dom.containsLoop, ge_iff_le, h1, h2]
  by_cases g1 : k < x <;> by_cases g2 : y ≤ k <;> simp [g1, g2] <;> omega

theorem distance_nat {x y k : Nat} (hk : x ≤ k) :
    Dom.distanceFromFront (seg () x y) [el () k] = .ok (vec () (k - x)) := by
  have := One.sub_nat () hk
  simp only [el] at this
  simp [Dom.distanceFromFront, seg, el, Tup.tags, Tup.ofTuples, One.take, Tup.select, Dom.beg, this, vec]

theorem addInt_el (x k : Nat) : Elem.addInt (el () x) (BitVec.ofNat 64 k) = .ok (el () (x + k)) := by
  simp [Elem.addInt, el, BitVec.ofNat_add]

theorem subInt_el {x k : Nat} (h : k ≤ x) :
    Elem.subInt (el () x) (BitVec.ofNat 64 k) = .ok (el () (x - k)) := by
  simp only [Elem.subInt, el]
  rw [ofNat_sub h]

end One

namespace Chunk1

/-- A chunk on the first `N` elements. -/
def On (c : Chunk1 K) (N : Nat) : Prop := c.dom = seg () 0 N ∧ c.data.size = N

variable {c : Chunk1 K} {N : Nat}

theorem pos_ok (h : c.On N) (hN : N < 2 ^ 63) {k : Nat} (hk : k < N) : c.pos (el () k) = .ok k := by
  have h1 := contains_nat (x := 0) (y := N) (k := k) (by omega) (by omega) (by omega)
  have h2 : decide (0 ≤ k ∧ k < N) = true := by simpa using hk
  rw [h2] at h1
  rw [pos, h.1, h1, Res.ok_bind, Res.guardAbort_true, Res.ok_bind, distance_nat (by omega), Res.ok_bind,
    Nat.sub_zero, show Vect.value (vec () k) = .ok (BitVec.ofNat 64 k) from rfl, Res.ok_bind]
  simp only [Res.pure_eq, BitVec.toNat_ofNat]
  rw [Nat.mod_eq_of_lt (by omega)]

theorem put_ok (h : c.On N) (hN : N < 2 ^ 63) {k : Nat} (hk : k < N) (v : K) :
    c.put (el () k) v = .ok ⟨c.dom, c.data.set k v⟩ := by
  rw [put, pos_ok h hN hk, Res.ok_bind, Arr.wr_ok (by rw [h.2]; exact hk)]
  rfl

theorem get_ok (h : c.On N) (hN : N < 2 ^ 63) {k : Nat} (hk : k < N) {v : K} (hv : c.data.val k = some v) :
    c.get (el () k) = .ok v := by
  rw [get, pos_ok h hN hk, Res.ok_bind, Arr.rd_ok (by rw [h.2]; exact hk) hv]

theorem fill_ok (h : c.On N) (hN : N < 2 ^ 63) {x y : Nat} (hxy : x ≤ y) (hy : 0 < y) (hyN : y ≤ N) (v : K) :
    ∃ c', c.fillSub (seg () x y) v = .ok c' ∧ c'.On N ∧
      ∀ k, c'.data.val k = if x ≤ k ∧ k < y then some v else c.data.val k := by
  obtain ⟨d, e, h1, h2⟩ := forLoop_inv (f := fun i d => Arr.wr d i v)
    (fun i d => d.size = N ∧ ∀ k, d.val k = if x ≤ k ∧ k < i then some v else c.data.val k)
    (y - x) x c.data ⟨h.2, fun k => by rw [if_neg (by omega)]⟩
    (by
      rintro i d hi hi' ⟨g1, g2⟩
      refine ⟨_, Arr.wr_ok (by omega) v, g1, fun k => ?_⟩
      rw [Arr.set_val, g2]
      by_cases hk : k = i
      · rw [if_pos hk, if_pos (by omega)]
      · rw [if_neg hk]
        by_cases hk' : x ≤ k ∧ k < i
        · rw [if_pos hk', if_pos (by omega)]
        · rw [if_neg hk', if_neg (by omega)])
  rw [Nat.add_sub_cancel' hxy] at h2
  refine ⟨⟨c.dom, d⟩, ?_, ⟨h.1, h1⟩, h2⟩
  have he : Dom.empty (seg () x y) = .ok (decide (x = y)) := by
    rw [Dom.empty, seg_size hxy, Res.ok_bind]
    simp only [Res.pure_eq]
    congr 2
    rw [eq_iff_iff]
    constructor
    · intro hz
      have := congrArg BitVec.toNat hz
      rw [BitVec.toNat_ofNat, Nat.mod_eq_of_lt (by omega)] at this
      have h0 : (0 : U64).toNat = 0 := rfl
      omega
    · rintro rfl; simp
  have hg : (decide (x = y) || (decide (0 ≤ x ∧ x < N) && decide (0 ≤ y - 1 ∧ y - 1 < N))) = true := by
    simp only [Bool.or_eq_true, decide_eq_true_eq, Bool.and_eq_true]
    omega
  rw [fillSub, he, Res.ok_bind, h.1, One.front, contains_nat (by omega) (by omega) (by omega), Res.ok_bind,
    back_nat () hy, Res.ok_bind, contains_nat (by omega) (by omega) (by omega), Res.ok_bind, hg,
    Res.guardAbort_true, Res.ok_bind, One.front, One.sub_nat () (by omega), Res.ok_bind,
    show Vect.value (vec () (x - 0)) = .ok (BitVec.ofNat 64 x) from rfl, Res.ok_bind,
    show (1 : I64) = BitVec.ofNat 64 1 from rfl, One.addInt_el, Res.ok_bind, Nat.sub_add_cancel hy,
    One.sub_nat () (by omega), Res.ok_bind,
    show Vect.value (vec () (y - 0)) = .ok (BitVec.ofNat 64 y) from rfl, Res.ok_bind]
  simp only [BitVec.toNat_ofNat]
  rw [Nat.mod_eq_of_lt (by omega), Nat.mod_eq_of_lt (by omega), if_pos ⟨hxy, by rw [h.2]; exact hyN⟩, e]
  rfl

/-- A slice with its ends in the wrong order. -/
theorem fill_ub (h : c.On N) (hN : N < 2 ^ 63) {x y : Nat} (hxy : y < x) (hx : x < N) (hy : 0 < y) (v : K) :
    c.fillSub (seg () x y) v = .ub := by
  have he : Dom.empty (seg () x y) = .ok false := by
    rw [Dom.empty]
    have : Dom.size (seg () x y) = .ok (BitVec.ofNat 64 y - BitVec.ofNat 64 x) := by
      simp [Dom.size, Dom.sizeAux, Dom.extent, seg, Dom.fin, Dom.beg, Tup.select, Tup.ofTuples, One.take,
        One.sub]
    rw [this, Res.ok_bind]
    simp only [Res.pure_eq]
    congr 1
    rw [decide_eq_false_iff_not]
    intro hz
    have := congrArg BitVec.toNat hz
    rw [BitVec.toNat_sub, BitVec.toNat_ofNat, BitVec.toNat_ofNat] at this
    have h0 : (0 : U64).toNat = 0 := rfl
    omega
  have hg : (false || (decide (0 ≤ x ∧ x < N) && decide (0 ≤ y - 1 ∧ y - 1 < N))) = true := by
    simp only [Bool.or_eq_true, decide_eq_true_eq, Bool.and_eq_true]
    omega
  rw [fillSub, he, Res.ok_bind, h.1, One.front, contains_nat (by omega) (by omega) (by omega), Res.ok_bind,
    back_nat () hy, Res.ok_bind, contains_nat (by omega) (by omega) (by omega), Res.ok_bind, hg,
    Res.guardAbort_true, Res.ok_bind, One.front, One.sub_nat () (by omega), Res.ok_bind,
    show Vect.value (vec () (x - 0)) = .ok (BitVec.ofNat 64 x) from rfl, Res.ok_bind,
    show (1 : I64) = BitVec.ofNat 64 1 from rfl, One.addInt_el, Res.ok_bind, Nat.sub_add_cancel hy,
    One.sub_nat () (by omega), Res.ok_bind,
    show Vect.value (vec () (y - 0)) = .ok (BitVec.ofNat 64 y) from rfl, Res.ok_bind]
  simp only [BitVec.toNat_ofNat]
  rw [if_neg]
  rw [Nat.mod_eq_of_lt (by omega), Nat.mod_eq_of_lt (by omega)]
  omega

end Chunk1

/-- `sum` of a part of an array. -/
theorem sumArr_ok {a : Arr K} {f : Nat → K} {lo hi : Nat} (hh : hi ≤ a.size)
    (h : ∀ k, lo ≤ k → k < hi → a.val k = some (f k)) :
    sumArr a lo hi = .ok (∑ k ∈ Finset.Ico lo hi, f k) := by
  by_cases hl : lo ≤ hi
  · obtain ⟨s, e, h1⟩ := forLoop_inv (f := fun i acc => do let v ← a.rd i; pure (acc + v))
      (fun i acc => i ≤ hi → acc = ∑ k ∈ Finset.Ico lo i, f k) (hi - lo) lo (0 : K) (by simp)
      (by
        intro i s g1 g2 g3
        refine ⟨s + f i, ?_, fun _ => ?_⟩
        · rw [Arr.rd_ok (by omega) (h i g1 (by omega))]; rfl
        · rw [Finset.sum_Ico_succ_top g1, ← g3 (by omega)])
    rw [sumArr, e, h1 (by omega)]
    congr 2
    rw [Nat.add_sub_cancel' hl]
  · rw [sumArr, show hi - lo = 0 by omega, Finset.Ico_eq_empty (by omega)]
    rfl

end DDC
