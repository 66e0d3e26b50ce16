import Verif.Lemmas.HeatMain
import Mathlib.Algebra.BigOperators.Group.Finset.Basic
import Mathlib.Algebra.BigOperators.Group.Finset.Sigma
import Mathlib.Algebra.BigOperators.Ring.Finset
import Mathlib.Data.Rat.Floor
import Mathlib.Algebra.Order.Floor.Ring

/-!
# C76 — the heat equation of the examples
-/

namespace DDC.Props

open Tup Spec Heat
open One (seg el vec)

set_option linter.unusedSectionVars false

variable {K : Type} [Field K] [LinearOrder K] [IsStrictOrderedRing K]

/-- Specification: a step of the explicit scheme with five points on an `nx × ny` torus. -/
def heatStep (cx cy : K) (nx ny : Nat) (u : Nat → Nat → K) (i j : Nat) : K :=
  u i j + cx * (u ((i + 1) % nx) j - 2 * u i j + u ((i + nx - 1) % nx) j)
    + cy * (u i ((j + 1) % ny) - 2 * u i j + u i ((j + ny - 1) % ny))

/-- The distance between two of `n` equally spaced points from `a` to `b`. -/
def gap (a b : K) (n : Nat) : K := (b - a) / ((n : K) - 1)

/-- The longest stable time step. -/
def stableStep (kx dx ky dy : K) : K := 1 / (2 * (kx / dx ^ 2 + ky / dy ^ 2))

/-- What is asked of the parameters: the intervals are not empty, each dimension has two points or more, the conductivities
are positive, the sizes fit in the integers of the program; `M` is the smallest number of stable steps that cover the time
interval. -/
structure HeatSetting (p : Params K) (nx ny M : Nat) : Prop where
  xs : p.xStart < p.xEnd
  ys : p.yStart < p.yEnd
  ts : p.startTime < p.endTime
  kxp : 0 < p.kx
  kyp : 0 < p.ky
  enx : p.nx = BitVec.ofNat 64 nx
  eny : p.ny = BitVec.ofNat 64 ny
  x2 : 2 ≤ nx
  y2 : 2 ≤ ny
  xb : nx + 2 < 2 ^ 63
  yb : ny + 2 < 2 ^ 63
  cells : (nx + 2) * (ny + 2) < 2 ^ 64
  cover : p.endTime - p.startTime ≤ M * stableStep p.kx (gap p.xStart p.xEnd nx) p.ky (gap p.yStart p.yEnd ny)
  least : ∀ m : Nat, p.endTime - p.startTime ≤ m * stableStep p.kx (gap p.xStart p.xEnd nx) p.ky (gap p.yStart p.yEnd ny) → M ≤ m
  tb : M + 1 < 2 ^ 63

/-- The coefficients of the scheme: `k dt / d²` with `dt = (endTime - startTime) / M`. -/
def coefX (p : Params K) (nx M : Nat) : K := p.kx * ((p.endTime - p.startTime) / M) / gap p.xStart p.xEnd nx ^ 2

def coefY (p : Params K) (ny M : Nat) : K := p.ky * ((p.endTime - p.startTime) / M) / gap p.yStart p.yEnd ny ^ 2

/-- The initial temperature at the points. -/
def initialHeat (p : Params K) (nx ny : Nat) (temp : K → K → K) (i j : Nat) : K :=
  temp (p.xStart + i * gap p.xStart p.xEnd nx) (p.yStart + j * gap p.yStart p.yEnd ny)

/-! ## From `[1, n]` to the torus -/

theorem wrap_succ {n i : Nat} (h : i < n) : wrap n (i + 1 + 1) = (i + 1) % n + 1 := by
  rw [wrap, if_neg (by omega)]
  split
  · rename_i e
    rw [show i + 1 = n by omega, Nat.mod_self]
  · rw [Nat.mod_eq_of_lt (by omega)]

theorem wrap_pred {n i : Nat} (h : i < n) : wrap n (i + 1 - 1) = (i + n - 1) % n + 1 := by
  rw [wrap]
  split
  · rename_i e
    rw [show i + n - 1 = n - 1 by omega, Nat.mod_eq_of_lt (by omega)]; omega
  · rw [if_neg (by omega), show i + n - 1 = i - 1 + n by omega, Nat.add_mod_right, Nat.mod_eq_of_lt (by omega)]; omega

theorem step_torus {cx cy : K} {nx ny : Nat} {dX dY : Nat → K → K → K → K}
    (hX : ∀ i r c l, dX i r c l = cx * (r - 2 * c + l)) (hY : ∀ j r c l, dY j r c l = cy * (r - 2 * c + l))
    {u U : Nat → Nat → K} (h : ∀ i j, i < nx → j < ny → u (i + 1) (j + 1) = U i j) (n : Nat) (i j : Nat) (hi : i < nx) (hj : j < ny) :
    (Heat.step (· + ·) dX dY nx ny)^[n] u (i + 1) (j + 1) = (heatStep cx cy nx ny)^[n] U i j := by
  induction n generalizing u U i j with
  | zero => exact h i j hi hj
  | succ n ih =>
    refine ih ?_ i j hi hj
    intro i j hi hj
    have m1 : ∀ k, k % nx < nx := fun k => Nat.mod_lt _ (by omega)
    have m2 : ∀ k, k % ny < ny := fun k => Nat.mod_lt _ (by omega)
    rw [Heat.step, heatStep, hX, hY, wrap_succ hi, wrap_pred hi, wrap_succ hj, wrap_pred hj, h _ _ hi hj, h _ _ (m1 _) hj,
      h _ _ (m1 _) hj, h _ _ hi (m2 _), h _ _ hi (m2 _)]

section

variable {p : Params K} {nx ny M : Nat}

theorem gap_pos {a b : K} (h : a < b) {n : Nat} (hn : 2 ≤ n) : 0 < gap a b n := by
  have : (2 : K) ≤ n := by exact_mod_cast hn
  exact div_pos (by linarith) (by linarith)

theorem gap_eq {a b : K} {n : Nat} (hn : 2 ≤ n) : gap a b n = (b - a) / ((n - 1 : Nat) : K) := by
  rw [gap, Nat.cast_sub (by omega), Nat.cast_one]

theorem HeatSetting.stable_pos (h : HeatSetting p nx ny M) :
    0 < stableStep p.kx (gap p.xStart p.xEnd nx) p.ky (gap p.yStart p.yEnd ny) := by
  have h1 := gap_pos h.xs h.x2
  have h2 := gap_pos h.ys h.y2
  have h3 := div_pos h.kxp (pow_pos h1 2)
  have h4 := div_pos h.kyp (pow_pos h2 2)
  exact div_pos one_pos (by linarith)

theorem HeatSetting.pos (h : HeatSetting p nx ny M) : 0 < M := by
  rcases Nat.eq_zero_or_pos M with h0 | h0
  · have h1 := h.cover
    have h2 := h.ts
    rw [h0, Nat.cast_zero, zero_mul] at h1
    linarith
  · exact h0

theorem HeatSetting.ceil [FloorRing K] (h : HeatSetting p nx ny M) :
    ⌈(p.endTime - p.startTime) / stableStep p.kx (gap p.xStart p.xEnd nx) p.ky (gap p.yStart p.yEnd ny)⌉ = (M : Int) := by
  have hs := h.stable_pos
  have hp := h.pos
  refine le_antisymm ?_ ?_
  · rw [Int.ceil_le, Int.cast_natCast, div_le_iff₀ hs]
    exact h.cover
  · by_contra hlt
    push Not at hlt
    have h1 : ⌈(p.endTime - p.startTime) / stableStep p.kx (gap p.xStart p.xEnd nx) p.ky (gap p.yStart p.yEnd ny)⌉ ≤
        ((M - 1 : Nat) : Int) := by omega
    rw [Int.ceil_le, Int.cast_natCast, div_le_iff₀ hs] at h1
    have := h.least _ h1
    omega

/-- The steps cover the time interval exactly, none is longer than the longest stable step: the coefficients are positive and
the coefficient `1 - 2 cx - 2 cy` of the centre is not negative. -/
theorem C76_stable (h : HeatSetting p nx ny M) :
    0 < coefX p nx M ∧ 0 < coefY p ny M ∧ 2 * coefX p nx M + 2 * coefY p ny M ≤ 1 ∧
      (M : K) * ((p.endTime - p.startTime) / M) = p.endTime - p.startTime := by
  have h1 := gap_pos h.xs h.x2
  have h2 := gap_pos h.ys h.y2
  have h3 := div_pos h.kxp (pow_pos h1 2)
  have h4 := div_pos h.kyp (pow_pos h2 2)
  have hM : (0 : K) < M := by exact_mod_cast h.pos
  have ht := h.ts
  have hdt : 0 < (p.endTime - p.startTime) / (M : K) := div_pos (by linarith) hM
  have e1 : coefX p nx M = (p.endTime - p.startTime) / M * (p.kx / gap p.xStart p.xEnd nx ^ 2) := by rw [coefX]; ring
  have e2 : coefY p ny M = (p.endTime - p.startTime) / M * (p.ky / gap p.yStart p.yEnd ny ^ 2) := by rw [coefY]; ring
  have hc := h.cover
  have hS : 0 < 2 * (p.kx / gap p.xStart p.xEnd nx ^ 2 + p.ky / gap p.yStart p.yEnd ny ^ 2) := by linarith
  rw [stableStep, mul_one_div, le_div_iff₀ hS] at hc
  refine ⟨by rw [e1]; exact mul_pos hdt h3, by rw [e2]; exact mul_pos hdt h4, ?_, by field_simp⟩
  have e3 : 2 * coefX p nx M + 2 * coefY p ny M =
      (p.endTime - p.startTime) * (2 * (p.kx / gap p.xStart p.xEnd nx ^ 2 + p.ky / gap p.yStart p.yEnd ny ^ 2)) / M := by
    rw [e1, e2]; ring
  rw [e3, div_le_one hM]
  exact hc

/-- `main` ends, whatever the order of the iterations of its kernels and of the assignments of its copies, without reading or
writing outside of its chunks or through an assertion; the temperatures are those of `M` steps of the scheme on the torus. -/
theorem C76_uniform [FloorRing K] (h : HeatSetting p nx ny M) (temp : K → K → K) (junk : Nat → K) (order : List (List I64))
    (ho : order.Perm (Support.policy [BitVec.ofNat 64 nx, BitVec.ofNat 64 ny])) (orders : Nat → Orders)
    (hos : ∀ k, OrdersOk nx ny (orders k)) :
    ∃ mem v, Heat.main p temp junk order orders = .ok (mem, v) ∧ ∀ i j, i < nx → j < ny →
      View.get mem v [[(Dim.x, BitVec.ofNat 64 (i + 1))], [(Dim.y, BitVec.ofNat 64 (j + 1))]] =
        .ok ((heatStep (coefX p nx M) (coefY p ny M) nx ny)^[M] (initialHeat p nx ny temp) i j) := by
  have hx := h.x2; have hy := h.y2
  have h1 := gap_pos h.xs h.x2
  have h2 := gap_pos h.ys h.y2
  have hceil := h.ceil
  have es : stableStep p.kx (gap p.xStart p.xEnd nx) p.ky (gap p.yStart p.yEnd ny) =
      1 / 2 / (p.kx * (1 / (gap p.xStart p.xEnd nx * gap p.xStart p.xEnd nx)) +
        p.ky * (1 / (gap p.yStart p.yEnd ny * gap p.yStart p.yEnd ny))) := by
    rw [stableStep, div_div, mul_one_div, mul_one_div, pow_two, pow_two]
  rw [es] at hceil
  obtain ⟨mem, v, s, pos, N, m1, G, m3, m4⟩ := main_ok p h.enx h.eny (by omega) (by omega) h.xb h.yb h.cells h.xs h.ys h.ts
    (gap_eq hx) (gap_eq hy) hceil h.pos h.tb rfl temp junk ho hos
  refine ⟨mem, v, m1, ?_⟩
  intro i j hi hj
  refine Heat.get_ok (by rw [m3]; exact G.chart) (by omega) (by omega) (by omega) (by omega) ?_
  rw [m4 (i + 1) (j + 1) (by omega) (by omega) (by omega) (by omega)]
  congr 1
  refine step_torus ?_ ?_ ?_ M i j hi hj
  · intro i r c l; rw [coefX]; field_simp
  · intro j r c l; rw [coefY]; field_simp
  · intro i j _ _
    simp only [initialHeat]
    push_cast
    congr 2 <;> ring

end

/-! ## The scheme -/

theorem heatStep_between {cx cy : K} (hx : 0 ≤ cx) (hy : 0 ≤ cy) (hs : 2 * cx + 2 * cy ≤ 1) {nx ny : Nat} {u : Nat → Nat → K}
    {m M : K} (h : ∀ i j, i < nx → j < ny → m ≤ u i j ∧ u i j ≤ M) {i j : Nat} (hi : i < nx) (hj : j < ny) :
    m ≤ heatStep cx cy nx ny u i j ∧ heatStep cx cy nx ny u i j ≤ M := by
  have m1 : ∀ k, k % nx < nx := fun k => Nat.mod_lt _ (by omega)
  have m2 : ∀ k, k % ny < ny := fun k => Nat.mod_lt _ (by omega)
  have a1 := h i j hi hj
  have a2 := h _ j (m1 (i + 1)) hj
  have a3 := h _ j (m1 (i + nx - 1)) hj
  have a4 := h i _ hi (m2 (j + 1))
  have a5 := h i _ hi (m2 (j + ny - 1))
  have e : heatStep cx cy nx ny u i j = (1 - 2 * cx - 2 * cy) * u i j + cx * u ((i + 1) % nx) j + cx * u ((i + nx - 1) % nx) j
      + cy * u i ((j + 1) % ny) + cy * u i ((j + ny - 1) % ny) := by rw [heatStep]; ring
  have hc : 0 ≤ 1 - 2 * cx - 2 * cy := by linarith
  constructor
  · have b1 := mul_le_mul_of_nonneg_left a1.1 hc
    have b2 := mul_le_mul_of_nonneg_left a2.1 hx
    have b3 := mul_le_mul_of_nonneg_left a3.1 hx
    have b4 := mul_le_mul_of_nonneg_left a4.1 hy
    have b5 := mul_le_mul_of_nonneg_left a5.1 hy
    linarith
  · have b1 := mul_le_mul_of_nonneg_left a1.2 hc
    have b2 := mul_le_mul_of_nonneg_left a2.2 hx
    have b3 := mul_le_mul_of_nonneg_left a3.2 hx
    have b4 := mul_le_mul_of_nonneg_left a4.2 hy
    have b5 := mul_le_mul_of_nonneg_left a5.2 hy
    linarith

open Finset in
theorem sum_succ_mod (f : Nat → K) (n : Nat) : ∑ i ∈ range n, f ((i + 1) % n) = ∑ i ∈ range n, f i := by
  rcases n with _ | n
  · rfl
  · rw [sum_range_succ, Nat.mod_self, sum_range_succ' f n]
    congr 1
    exact sum_congr rfl (fun i hi => by rw [Nat.mod_eq_of_lt (by have := mem_range.1 hi; omega)])

open Finset in
theorem sum_pred_mod (f : Nat → K) (n : Nat) : ∑ i ∈ range n, f ((i + n - 1) % n) = ∑ i ∈ range n, f i := by
  rcases n with _ | n
  · rfl
  · rw [sum_range_succ', sum_range_succ f n]
    congr 1
    · refine sum_congr rfl (fun i hi => ?_)
      have := mem_range.1 hi
      rw [show i + 1 + (n + 1) - 1 = i + (n + 1) by omega, Nat.add_mod_right, Nat.mod_eq_of_lt (by omega)]
    · rw [show 0 + (n + 1) - 1 = n by omega, Nat.mod_eq_of_lt (by omega)]

open Finset in
theorem heatStep_sum (cx cy : K) (nx ny : Nat) (u : Nat → Nat → K) :
    ∑ i ∈ range nx, ∑ j ∈ range ny, heatStep cx cy nx ny u i j = ∑ i ∈ range nx, ∑ j ∈ range ny, u i j := by
  have hX : ∑ i ∈ range nx, ∑ j ∈ range ny, (u ((i + 1) % nx) j - 2 * u i j + u ((i + nx - 1) % nx) j) = 0 := by
    rw [sum_comm]
    refine sum_eq_zero (fun j _ => ?_)
    rw [sum_add_distrib, sum_sub_distrib, sum_succ_mod (fun i => u i j), sum_pred_mod (fun i => u i j), ← mul_sum]
    ring
  have hY : ∑ i ∈ range nx, ∑ j ∈ range ny, (u i ((j + 1) % ny) - 2 * u i j + u i ((j + ny - 1) % ny)) = 0 := by
    refine sum_eq_zero (fun i _ => ?_)
    rw [sum_add_distrib, sum_sub_distrib, sum_succ_mod (fun j => u i j), sum_pred_mod (fun j => u i j), ← mul_sum]
    ring
  simp only [heatStep, sum_add_distrib, ← mul_sum] at hX hY ⊢
  rw [hX, hY]
  ring

section

variable {p : Params K} {nx ny M : Nat}

/-- No temperature at the end is above the highest or below the lowest initial one. -/
theorem C76_maximum [FloorRing K] (h : HeatSetting p nx ny M) (temp : K → K → K) (junk : Nat → K) (order : List (List I64))
    (ho : order.Perm (Support.policy [BitVec.ofNat 64 nx, BitVec.ofNat 64 ny])) (orders : Nat → Orders)
    (hos : ∀ k, OrdersOk nx ny (orders k)) (cold hot : K)
    (ht : ∀ i j, i < nx → j < ny → cold ≤ initialHeat p nx ny temp i j ∧ initialHeat p nx ny temp i j ≤ hot) :
    ∃ mem v, Heat.main p temp junk order orders = .ok (mem, v) ∧ ∀ i j, i < nx → j < ny → ∃ x,
      View.get mem v [[(Dim.x, BitVec.ofNat 64 (i + 1))], [(Dim.y, BitVec.ofNat 64 (j + 1))]] = .ok x ∧ cold ≤ x ∧ x ≤ hot := by
  obtain ⟨mem, v, m1, m2⟩ := C76_uniform h temp junk order ho orders hos
  obtain ⟨s1, s2, s3, _⟩ := C76_stable h
  refine ⟨mem, v, m1, fun i j hi hj => ⟨_, m2 i j hi hj, ?_⟩⟩
  clear m1 m2
  have : ∀ (n : Nat) (u : Nat → Nat → K), (∀ i j, i < nx → j < ny → cold ≤ u i j ∧ u i j ≤ hot) → ∀ i j, i < nx → j < ny →
      cold ≤ (heatStep (coefX p nx M) (coefY p ny M) nx ny)^[n] u i j ∧
        (heatStep (coefX p nx M) (coefY p ny M) nx ny)^[n] u i j ≤ hot := by
    intro n
    induction n with
    | zero => intro u hu i j hi hj; exact hu i j hi hj
    | succ n ih =>
      intro u hu i j hi hj
      exact ih _ (fun i j hi hj => heatStep_between s1.le s2.le s3 hu hi hj) i j hi hj
  exact this M _ ht i j hi hj

open Finset in
/-- The sum of the temperatures at the end is that at the beginning. -/
theorem C76_conservation [FloorRing K] (h : HeatSetting p nx ny M) (temp : K → K → K) (junk : Nat → K)
    (order : List (List I64)) (ho : order.Perm (Support.policy [BitVec.ofNat 64 nx, BitVec.ofNat 64 ny]))
    (orders : Nat → Orders) (hos : ∀ k, OrdersOk nx ny (orders k)) :
    ∃ mem v, ∃ x : Nat → Nat → K, Heat.main p temp junk order orders = .ok (mem, v) ∧ (∀ i j, i < nx → j < ny →
      View.get mem v [[(Dim.x, BitVec.ofNat 64 (i + 1))], [(Dim.y, BitVec.ofNat 64 (j + 1))]] = .ok (x i j)) ∧
      ∑ i ∈ range nx, ∑ j ∈ range ny, x i j = ∑ i ∈ range nx, ∑ j ∈ range ny, initialHeat p nx ny temp i j := by
  obtain ⟨mem, v, m1, m2⟩ := C76_uniform h temp junk order ho orders hos
  refine ⟨mem, v, _, m1, m2, ?_⟩
  clear m1 m2 h
  generalize initialHeat p nx ny temp = u
  generalize coefX p nx M = cx
  generalize coefY p ny M = cy
  induction M generalizing u with
  | zero => rfl
  | succ n ih => exact (ih _).trans (heatStep_sum cx cy nx ny u)

end

/-- Three by three points on `[-1, 1]²`, conductivities 1/10, ten units of time: four steps of coefficients 1/4. -/
private def heatParams : Params Rat := ⟨-1, 1, 3, 1 / 10, -1, 1, 3, 1 / 10, 0, 10⟩

private def heatOrders : Orders :=
  ⟨fun _ => MDSpan.indices [3], fun _ => MDSpan.indices [3], fun _ => MDSpan.indices [3], fun _ => MDSpan.indices [3],
    Support.policy [3, 3]⟩

example : HeatSetting heatParams 3 3 4 ∧ OrdersOk 3 3 heatOrders := by
  refine ⟨⟨by decide +kernel, by decide +kernel, by decide +kernel, by decide +kernel, by decide +kernel, rfl, rfl, by omega,
    by omega, by omega, by omega, by omega, ?_, ?_, by omega⟩, ⟨.refl _, .refl _, .refl _, .refl _, .refl _⟩⟩
  · norm_num [heatParams, stableStep, gap]
  · intro m hm
    norm_num [heatParams, stableStep, gap] at hm
    have : (4 : Rat) ≤ m := by linarith
    exact_mod_cast this

example : (do
      let (mem, v) ← Heat.main heatParams (fun x y => if x = 0 ∧ y = 0 then 16 else 0) (fun _ => 0) (Support.policy [3, 3])
        (fun _ => heatOrders)
      View.get mem v [[(Dim.x, 2)], [(Dim.y, 2)]]) = .ok (9 / 4 : Rat) ∧ coefX heatParams 3 4 = 1 / 4 := by
  refine ⟨by decide +kernel, ?_⟩
  norm_num [coefX, heatParams, gap]

end DDC.Props
