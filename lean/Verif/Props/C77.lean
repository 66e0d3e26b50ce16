import Verif.Props.C76
import Verif.Lemmas.HeatSampling

/-!
# C77 — the heat equation of the examples by distances between points
-/

namespace DDC.Props

open Tup Spec Heat
open One (seg el vec)

set_option linter.unusedSectionVars false

variable {K : Type} [Field K] [LinearOrder K] [IsStrictOrderedRing K]

/-- Specification: the second difference at a point of value `c`, with values `r` at distance `dr` on the right and `l` at
distance `dl` on the left. -/
def secondDiff (dl dr r c l : K) : K := 2 * ((r - c) / dr - (c - l) / dl) / (dl + dr)

/-- It is the second derivative for polynomials of degree two. -/
theorem secondDiff_quadratic {dl dr : K} (hl : 0 < dl) (hr : 0 < dr) (a b c x : K) :
    secondDiff dl dr (a * (x + dr) ^ 2 + b * (x + dr) + c) (a * x ^ 2 + b * x + c) (a * (x - dl) ^ 2 + b * (x - dl) + c) = 2 * a := by
  have : dl + dr ≠ 0 := by positivity
  rw [secondDiff]
  field_simp
  ring

/-- A step of the explicit scheme on a torus; `lx i` and `rx i` are the distances on the left and on the right of point `i`. -/
def meshStep (kx ky dt : K) (lx rx ly ry : Nat → K) (nx ny : Nat) (u : Nat → Nat → K) (i j : Nat) : K :=
  u i j + dt * (kx * secondDiff (lx i) (rx i) (u ((i + 1) % nx) j) (u i j) (u ((i + nx - 1) % nx) j)
    + ky * secondDiff (ly j) (ry j) (u i ((j + 1) % ny)) (u i j) (u i ((j + ny - 1) % ny)))

/-- Equally spaced points from `a` to `b` whose inner points are displaced by `dis i` times their distance. -/
def meshPoint (a b : K) (dis : Nat → K) (n i : Nat) : K :=
  a + i * gap a b n + if 1 ≤ i ∧ i + 1 < n then dis i * gap a b n else 0

/-- The distance on the left; that of the first point is that of the last one. -/
def leftGap (x : Nat → K) (n i : Nat) : K := if i = 0 then x (n - 1) - x (n - 2) else x i - x (i - 1)

/-- The distance on the right; that of the last point is that of the first one. -/
def rightGap (x : Nat → K) (n i : Nat) : K := if i = n - 1 then x 1 - x 0 else x (i + 1) - x i

/-- `m` is the greatest of the `f i`. -/
def Greatest (n : Nat) (f : Nat → K) (m : K) : Prop := (∀ i, i < n → f i ≤ m) ∧ ∃ i, i < n ∧ m = f i

/-- What is asked of the parameters of `/repo/examples/non_uniform_heat_equation.cpp` with the displacements `disX`, `disY`:
as `HeatSetting`, the number of points fits in an `int`, and the displacements are between -1/10 and 1/10. -/
structure MeshSetting (p : Params K) (disX disY : Nat → K) (nx ny M : Nat) (mx my : K) : Prop where
  xs : p.xStart < p.xEnd
  ys : p.yStart < p.yEnd
  ts : p.startTime < p.endTime
  kxp : 0 < p.kx
  kyp : 0 < p.ky
  enx : p.nx = BitVec.ofNat 64 nx
  eny : p.ny = BitVec.ofNat 64 ny
  x2 : 2 ≤ nx
  y2 : 2 ≤ ny
  xb : nx < 2 ^ 31
  yb : ny < 2 ^ 31
  dx : ∀ i, 1 ≤ i → i + 1 < nx → -(1 / 10) ≤ disX i ∧ disX i ≤ 1 / 10
  dy : ∀ i, 1 ≤ i → i + 1 < ny → -(1 / 10) ≤ disY i ∧ disY i ≤ 1 / 10
  gx : Greatest nx (fun i => 1 / (leftGap (meshPoint p.xStart p.xEnd disX nx) nx i *
    rightGap (meshPoint p.xStart p.xEnd disX nx) nx i)) mx
  gy : Greatest ny (fun i => 1 / (leftGap (meshPoint p.yStart p.yEnd disY ny) ny i *
    rightGap (meshPoint p.yStart p.yEnd disY ny) ny i)) my
  cover : p.endTime - p.startTime ≤ M * (1 / (2 * (p.kx * mx + p.ky * my)))
  least : ∀ m : Nat, p.endTime - p.startTime ≤ m * (1 / (2 * (p.kx * mx + p.ky * my))) → M ≤ m
  tb : M + 1 < 2 ^ 63

/-- The time step. -/
def timeStepOf (p : Params K) (M : Nat) : K := (p.endTime - p.startTime) / M

/-! ## Lemmas -/

theorem ceil_least [FloorRing K] {T s : K} {M : Nat} (hT : 0 < T) (hs : 0 < s) (h1 : T ≤ M * s)
    (h2 : ∀ m : Nat, T ≤ m * s → M ≤ m) : ⌈T / s⌉ = (M : Int) ∧ 0 < M := by
  have hp : 0 < M := by
    rcases Nat.eq_zero_or_pos M with h0 | h0
    · rw [h0, Nat.cast_zero, zero_mul] at h1
      linarith
    · exact h0
  refine ⟨le_antisymm ?_ ?_, hp⟩
  · rw [Int.ceil_le, Int.cast_natCast, div_le_iff₀ hs]
    exact h1
  · by_contra hlt
    push Not at hlt
    have h3 : ⌈T / s⌉ ≤ ((M - 1 : Nat) : Int) := by omega
    rw [Int.ceil_le, Int.cast_natCast, div_le_iff₀ hs] at h3
    have := h2 _ h3
    omega

theorem pointOf_eq {a b : K} {dis : Nat → K} {n : Nat} (i : Nat) : pointOf a b dis n i = meshPoint a b dis n i := by
  rw [pointOf, meshPoint, gap]
  split <;> ring

theorem meshPoint_lt {a b : K} (hab : a < b) {n : Nat} (hn : 2 ≤ n) {dis : Nat → K}
    (hd : ∀ i, 1 ≤ i → i + 1 < n → -(1 / 10) ≤ dis i ∧ dis i ≤ 1 / 10) {i j : Nat} (h : i < j) :
    meshPoint a b dis n i < meshPoint a b dis n j := by
  rw [← pointOf_eq, ← pointOf_eq]
  exact increasing_points hab hn hd h

theorem gaps_pos {x : Nat → K} (hx : ∀ i j, i < j → x i < x j) {n : Nat} (hn : 2 ≤ n) (i : Nat) :
    0 < leftGap x n i ∧ 0 < rightGap x n i := by
  have h1 := hx (n - 2) (n - 1) (by omega)
  have h2 := hx 0 1 (by omega)
  constructor
  · rw [leftGap]
    split
    · linarith
    · have := hx (i - 1) i (by omega)
      linarith
  · rw [rightGap]
    split
    · linarith
    · have := hx i (i + 1) (by omega)
      linarith

theorem ghost_left {x : Nat → K} {n : Nat} (hn : 2 ≤ n) {i : Nat} (hi : i < n) :
    ghostOf x (x (n - 1) - x 0) n (i + 1) - ghostOf x (x (n - 1) - x 0) n i = leftGap x n i := by
  rw [ghostOf, ghostOf, leftGap, if_neg (by omega), if_neg (by omega)]
  by_cases h0 : i = 0
  · subst h0
    rw [if_pos rfl, if_pos rfl]
    simp only [Nat.zero_add, Nat.sub_self]
    ring
  · rw [if_neg h0, if_neg h0, if_neg (by omega), show i + 1 - 1 = i by omega]

theorem ghost_right {x : Nat → K} {n : Nat} (hn : 2 ≤ n) {i : Nat} (hi : i < n) :
    ghostOf x (x (n - 1) - x 0) n (i + 1 + 1) - ghostOf x (x (n - 1) - x 0) n (i + 1) = rightGap x n i := by
  rw [ghostOf, ghostOf, rightGap, if_neg (by omega), if_neg (show ¬ i + 1 = 0 by omega), if_neg (show ¬ i + 1 = n + 1 by omega)]
  by_cases h0 : i = n - 1
  · rw [if_pos (by omega), if_pos h0, show i + 1 - 1 = i by omega, h0]
    ring
  · rw [if_neg (by omega), if_neg h0]
    simp

theorem incOf_eq {k dt dl dr : K} (hl : 0 < dl) (hr : 0 < dr) {l r : Nat → K} {i : Nat} (el : l i = dl) (er : r i = dr) (x c y : K) :
    incOf k dt l r i x c y = dt * (k * secondDiff dl dr x c y) := by
  have : dl + dr ≠ 0 := by positivity
  rw [incOf, secondDiff, el, er]
  field_simp
  ring

theorem mesh_torus {dX dY : Nat → K → K → K → K} {kx ky dt : K} {lx rx ly ry : Nat → K} {nx ny : Nat}
    (hX : ∀ i, i < nx → ∀ r c l, dX (i + 1) r c l = dt * (kx * secondDiff (lx i) (rx i) r c l))
    (hY : ∀ j, j < ny → ∀ r c l, dY (j + 1) r c l = dt * (ky * secondDiff (ly j) (ry j) r c l))
    {u U : Nat → Nat → K} (h : ∀ i j, i < nx → j < ny → u (i + 1) (j + 1) = U i j) (n : Nat) (i j : Nat) (hi : i < nx) (hj : j < ny) :
    (Heat.step (· + ·) dX dY nx ny)^[n] u (i + 1) (j + 1) = (meshStep kx ky dt lx rx ly ry nx ny)^[n] U i j := by
  induction n generalizing u U i j with
  | zero => exact h i j hi hj
  | succ n ih =>
    refine ih ?_ i j hi hj
    intro i j hi hj
    have m1 : ∀ k, k % nx < nx := fun k => Nat.mod_lt _ (by omega)
    have m2 : ∀ k, k % ny < ny := fun k => Nat.mod_lt _ (by omega)
    rw [Heat.step, meshStep, hX i hi, hY j hj, wrap_succ hi, wrap_pred hi, wrap_succ hj, wrap_pred hj, h _ _ hi hj,
      h _ _ (m1 _) hj, h _ _ (m1 _) hj, h _ _ hi (m2 _), h _ _ hi (m2 _)]
    ring

/-! ## The programs -/

section

variable {p : Params K} {nx ny M : Nat}

/-- `/repo/examples/heat_equation.cpp` computes the same temperatures as `/repo/examples/uniform_heat_equation.cpp`
(`C76_uniform`). -/
theorem C77_uniform [FloorRing K] (h : HeatSetting p nx ny M) (temp : K → K → K) (junk : Nat → K) (order : List (List I64))
    (ho : order.Perm (Support.policy [BitVec.ofNat 64 nx, BitVec.ofNat 64 ny])) (orders : Nat → Orders)
    (hos : ∀ k, OrdersOk nx ny (orders k)) :
    ∃ mem v, Heat.mainDistances p temp junk order orders = .ok (mem, v) ∧ ∀ i j, i < nx → j < ny →
      View.get mem v [[(Dim.x, BitVec.ofNat 64 (i + 1))], [(Dim.y, BitVec.ofNat 64 (j + 1))]] =
        .ok ((heatStep (coefX p nx M) (coefY p ny M) nx ny)^[M] (initialHeat p nx ny temp) i j) := by
  have hx := h.x2; have hy := h.y2
  have h1 := gap_pos h.xs h.x2
  have h2 := gap_pos h.ys h.y2
  have hceil := h.ceil
  have es : stableStep p.kx (gap p.xStart p.xEnd nx) p.ky (gap p.yStart p.yEnd ny) =
      1 / 2 / (p.kx * (1 / (gap p.xStart p.xEnd nx * gap p.xStart p.xEnd nx)) +
        p.ky * (1 / (gap p.yStart p.yEnd ny * gap p.yStart p.yEnd ny))) := by
    rw [stableStep, div_div, mul_one_div, mul_one_div, pow_two, pow_two]
  rw [es] at hceil
  have hi1 := initGhosted1_ok Dim.x p.xStart p.xEnd h.xs nx (by omega) h.xb
  have hi2 := initGhosted1_ok Dim.y p.yStart p.yEnd h.ys ny (by omega) h.yb
  rw [← gap_eq hx] at hi1
  rw [← gap_eq hy] at hi2
  have hco : ∀ (t : Dim) (a d : K) (i : Nat), i < 2 ^ 63 →
      (⟨a - 1 * d, d, el t 0⟩ : Uniform Dim K).coordinate (el t i) = .ok (a + ((i : K) - 1) * d) := by
    intro t a d i hi
    have := coordinate_ok t (a - 1 * d) d hi
    rw [show (Elem.createReference t : Elem Dim) = el t 0 from rfl] at this
    rw [this]; congr 1; ring
  have hxb := h.xb; have hyb := h.yb
  obtain ⟨mem, v, s, pos, N, m1, G, m3, m4⟩ := solve_ok (kx := p.kx) (ky := p.ky) (nx := nx) (ny := ny) (M := M) (by omega) (by omega)
    h.xb h.yb h.cells h.ts
    (X := uniformSampler ⟨p.xStart - 1 * gap p.xStart p.xEnd nx, gap p.xStart p.xEnd nx, el Dim.x 0⟩)
    (Y := uniformSampler ⟨p.yStart - 1 * gap p.yStart p.yEnd ny, gap p.yStart p.yEnd ny, el Dim.y 0⟩)
    (xs := fun i => p.xStart + ((i : K) - 1) * gap p.xStart p.xEnd nx) (lx := fun _ => gap p.xStart p.xEnd nx)
    (rx := fun _ => gap p.xStart p.xEnd nx) (ys := fun i => p.yStart + ((i : K) - 1) * gap p.yStart p.yEnd ny)
    (ly := fun _ => gap p.yStart p.yEnd ny) (ry := fun _ => gap p.yStart p.yEnd ny)
    (fun i g1 g2 => ⟨hco .x _ _ i (by omega), ⟨rfl, h1⟩, rfl, h1⟩) (fun i g1 g2 => ⟨hco .y _ _ i (by omega), ⟨rfl, h2⟩, rfl, h2⟩)
    ⟨fun _ _ _ => le_refl _, 1, by omega, by omega, rfl⟩ ⟨fun _ _ _ => le_refl _, 1, by omega, by omega, rfl⟩ hceil h.pos h.tb temp
    junk ho hos
  refine ⟨mem, v, ?_, ?_⟩
  · rw [mainDistances, h.enx, h.eny, hi1, Res.ok_bind]
    simp only [axis_ok, Res.ok_bind, hi2, m1]
  intro i j hi hj
  refine Heat.get_ok (by rw [m3]; exact G.chart) (by omega) (by omega) (by omega) (by omega) ?_
  rw [m4 (i + 1) (j + 1) (by omega) (by omega) (by omega) (by omega)]
  congr 1
  refine step_torus ?_ ?_ ?_ M i j hi hj
  · intro i r c l
    rw [incOf_eq h1 h1 (l := fun _ => gap p.xStart p.xEnd nx) (r := fun _ => gap p.xStart p.xEnd nx) rfl rfl, coefX, secondDiff]
    field_simp
    ring
  · intro j r c l
    rw [incOf_eq h2 h2 (l := fun _ => gap p.yStart p.yEnd ny) (r := fun _ => gap p.yStart p.yEnd ny) rfl rfl, coefY, secondDiff]
    field_simp
    ring
  · intro i j _ _
    simp only [initialHeat]
    push_cast
    congr 2 <;> ring

variable {disX disY : Nat → K} {mx my : K}

theorem Greatest.inv_pos {n : Nat} {x : Nat → K} (hx : ∀ i j, i < j → x i < x j) (hn : 2 ≤ n) {m : K}
    (h : Greatest n (fun i => 1 / (leftGap x n i * rightGap x n i)) m) : 0 < m := by
  obtain ⟨_, i, _, e⟩ := h
  rw [e]
  have := gaps_pos hx hn i
  exact div_pos one_pos (mul_pos this.1 this.2)

theorem MeshSetting.speed_pos (h : MeshSetting p disX disY nx ny M mx my) : 0 < p.kx * mx + p.ky * my := by
  have h1 := mul_pos h.kxp (h.gx.inv_pos (fun _ _ => meshPoint_lt h.xs h.x2 h.dx) h.x2)
  have h2 := mul_pos h.kyp (h.gy.inv_pos (fun _ _ => meshPoint_lt h.ys h.y2 h.dy) h.y2)
  linarith

/-- `/repo/examples/non_uniform_heat_equation.cpp` ends, whatever the order of the iterations of its kernels and of the
assignments of its copies, without reading or writing outside of its chunks or through an assertion or exception; the
temperatures are those of `M` steps of the scheme, with the distances of the displaced points. -/
theorem C77_non_uniform [FloorRing K] (h : MeshSetting p disX disY nx ny M mx my) (temp : K → K → K) (junk : Nat → K)
    (order : List (List I64)) (ho : order.Perm (Support.policy [BitVec.ofNat 64 nx, BitVec.ofNat 64 ny])) (orders : Nat → Orders)
    (hos : ∀ k, OrdersOk nx ny (orders k)) :
    ∃ mem v, Heat.mainNonUniform p disX disY temp junk order orders = .ok (mem, v) ∧ ∀ i j, i < nx → j < ny →
      View.get mem v [[(Dim.x, BitVec.ofNat 64 (i + 1))], [(Dim.y, BitVec.ofNat 64 (j + 1))]] =
        .ok ((meshStep p.kx p.ky (timeStepOf p M)
          (leftGap (meshPoint p.xStart p.xEnd disX nx) nx) (rightGap (meshPoint p.xStart p.xEnd disX nx) nx)
          (leftGap (meshPoint p.yStart p.yEnd disY ny) ny) (rightGap (meshPoint p.yStart p.yEnd disY ny) ny) nx ny)^[M]
          (fun i j => temp (meshPoint p.xStart p.xEnd disX nx i) (meshPoint p.yStart p.yEnd disY ny j)) i j) := by
  have hx := h.x2; have hy := h.y2
  have hxb := h.xb; have hyb := h.yb
  obtain ⟨x, ex⟩ : ∃ x, x = meshPoint p.xStart p.xEnd disX nx := ⟨_, rfl⟩
  obtain ⟨y, ey⟩ : ∃ y, y = meshPoint p.yStart p.yEnd disY ny := ⟨_, rfl⟩
  have hxm : ∀ i j, i < j → x i < x j := fun i j hij => by rw [ex]; exact meshPoint_lt h.xs h.x2 h.dx hij
  have hym : ∀ i j, i < j → y i < y j := fun i j hij => by rw [ey]; exact meshPoint_lt h.ys h.y2 h.dy hij
  have hgx := h.gx; have hgy := h.gy
  rw [← ex] at hgx
  rw [← ey] at hgy
  have hsp := h.speed_pos
  have hcl := h.cover
  have hts := h.ts
  obtain ⟨hM, hM0⟩ := ceil_least (T := p.endTime - p.startTime) (by linarith) (div_pos one_pos (by linarith)) h.cover h.least
  rw [show 1 / (2 * (p.kx * mx + p.ky * my)) = 1 / 2 / (p.kx * mx + p.ky * my) by rw [div_div]] at hM
  obtain ⟨zx, ezx⟩ : ∃ z, z = ghostOf x (x (nx - 1) - x 0) nx := ⟨_, rfl⟩
  obtain ⟨zy, ezy⟩ : ∃ z, z = ghostOf y (y (ny - 1) - y 0) ny := ⟨_, rfl⟩
  have gx1 := generate_ok h.xs h.x2 h.xb h.dx
  have gy1 := generate_ok h.ys h.y2 h.yb h.dy
  rw [show pointOf p.xStart p.xEnd disX nx = x by rw [ex]; exact funext pointOf_eq] at gx1
  rw [show pointOf p.yStart p.yEnd disY ny = y by rw [ey]; exact funext pointOf_eq] at gy1
  obtain ⟨lx1, rx1⟩ := extrapolate_ok hxm hx
  obtain ⟨ly1, ry1⟩ := extrapolate_ok hym hy
  obtain ⟨ux, ux1, ux2⟩ := nonUniform_ok Dim.x hxm hx (by omega)
  obtain ⟨uy, uy1, uy2⟩ := nonUniform_ok Dim.y hym hy (by omega)
  rw [← ezx] at ux2
  rw [← ezy] at uy2
  have zl : ∀ i, 1 ≤ i → i < nx + 1 → zx i - zx (i - 1) = leftGap x nx (i - 1) := by
    intro i h1 h2
    have := ghost_left (x := x) hx (show i - 1 < nx by omega)
    rwa [show i - 1 + 1 = i by omega, ← ezx] at this
  have zr : ∀ i, 1 ≤ i → i < nx + 1 → zx (i + 1) - zx i = rightGap x nx (i - 1) := by
    intro i h1 h2
    have := ghost_right (x := x) hx (show i - 1 < nx by omega)
    rwa [show i - 1 + 1 = i by omega, ← ezx] at this
  have wl : ∀ i, 1 ≤ i → i < ny + 1 → zy i - zy (i - 1) = leftGap y ny (i - 1) := by
    intro i h1 h2
    have := ghost_left (x := y) hy (show i - 1 < ny by omega)
    rwa [show i - 1 + 1 = i by omega, ← ezy] at this
  have wr : ∀ i, 1 ≤ i → i < ny + 1 → zy (i + 1) - zy i = rightGap y ny (i - 1) := by
    intro i h1 h2
    have := ghost_right (x := y) hy (show i - 1 < ny by omega)
    rwa [show i - 1 + 1 = i by omega, ← ezy] at this
  have zc : ∀ i, 1 ≤ i → i < nx + 1 → zx i = x (i - 1) := by
    intro i h1 h2
    rw [ezx, ghostOf, if_neg (by omega), if_neg (by omega)]
  have wc : ∀ i, 1 ≤ i → i < ny + 1 → zy i = y (i - 1) := by
    intro i h1 h2
    rw [ezy, ghostOf, if_neg (by omega), if_neg (by omega)]
  obtain ⟨mem, v, s, pos, N, m1, G, m3, m4⟩ := solve_ok (kx := p.kx) (ky := p.ky) (nx := nx) (ny := ny) (M := M) (by omega) (by omega)
    (by omega) (by omega) (by
      have : (nx + 2) * (ny + 2) < 2 ^ 32 * 2 ^ 32 := Nat.mul_lt_mul'' (by omega) (by omega)
      omega) h.ts
    (X := nonUniformSampler ux) (Y := nonUniformSampler uy)
    (xs := fun i => x (i - 1)) (lx := fun i => leftGap x nx (i - 1)) (rx := fun i => rightGap x nx (i - 1))
    (ys := fun i => y (i - 1)) (ly := fun i => leftGap y ny (i - 1)) (ry := fun i => rightGap y ny (i - 1))
    (fun i g1 g2 => by
      obtain ⟨a1, a2, a3⟩ := nonUniform_sampler ux2 g1 g2
      rw [zc i g1 g2] at a1
      rw [zl i g1 g2] at a2
      rw [zr i g1 g2] at a3
      exact ⟨a1, ⟨a2, (gaps_pos hxm hx _).1⟩, a3, (gaps_pos hxm hx _).2⟩)
    (fun i g1 g2 => by
      obtain ⟨a1, a2, a3⟩ := nonUniform_sampler uy2 g1 g2
      rw [wc i g1 g2] at a1
      rw [wl i g1 g2] at a2
      rw [wr i g1 g2] at a3
      exact ⟨a1, ⟨a2, (gaps_pos hym hy _).1⟩, a3, (gaps_pos hym hy _).2⟩)
    (mx := mx) (my := my)
    (by
      obtain ⟨b1, i, b2, b3⟩ := hgx
      exact ⟨fun i h1 h2 => b1 (i - 1) (by omega), i + 1, by omega, by omega, by simpa using b3⟩)
    (by
      obtain ⟨b1, i, b2, b3⟩ := hgy
      exact ⟨fun i h1 h2 => b1 (i - 1) (by omega), i + 1, by omega, by omega, by simpa using b3⟩)
    hM hM0 h.tb temp junk ho hos
  refine ⟨mem, v, ?_, ?_⟩
  · rw [mainNonUniform, h.enx, h.eny, gx1, Res.ok_bind]
    simp only [lx1, rx1, Res.ok_bind, ux1, axis_ok, gy1, ly1, ry1, uy1, m1]
  intro i j hi hj
  refine Heat.get_ok (by rw [m3]; exact G.chart) (by omega) (by omega) (by omega) (by omega) ?_
  rw [m4 (i + 1) (j + 1) (by omega) (by omega) (by omega) (by omega), ← ex, ← ey]
  congr 1
  refine mesh_torus ?_ ?_ ?_ M i j hi hj
  · intro i hi r c l
    exact incOf_eq (gaps_pos hxm hx i).1 (gaps_pos hxm hx i).2 (by simp) (by simp) r c l
  · intro j hj r c l
    exact incOf_eq (gaps_pos hym hy j).1 (gaps_pos hym hy j).2 (by simp) (by simp) r c l
  · intro i j _ _
    simp

theorem secondDiff_between {dl dr : K} (hl : 0 < dl) (hr : 0 < dr) (r c l : K) :
    secondDiff dl dr r c l = 2 / (dr * (dl + dr)) * r + 2 / (dl * (dl + dr)) * l - 2 * (1 / (dl * dr)) * c := by
  have : dl + dr ≠ 0 := by positivity
  rw [secondDiff]
  field_simp
  ring

theorem weights {dl dr : K} (hl : 0 < dl) (hr : 0 < dr) : 2 / (dr * (dl + dr)) + 2 / (dl * (dl + dr)) = 2 * (1 / (dl * dr)) := by
  have : dl + dr ≠ 0 := by positivity
  field_simp

/-- No temperature at the end is above the highest or below the lowest initial one. -/
theorem C77_maximum [FloorRing K] (h : MeshSetting p disX disY nx ny M mx my) (temp : K → K → K) (junk : Nat → K)
    (order : List (List I64)) (ho : order.Perm (Support.policy [BitVec.ofNat 64 nx, BitVec.ofNat 64 ny])) (orders : Nat → Orders)
    (hos : ∀ k, OrdersOk nx ny (orders k)) (cold hot : K)
    (ht : ∀ i j, i < nx → j < ny →
      cold ≤ temp (meshPoint p.xStart p.xEnd disX nx i) (meshPoint p.yStart p.yEnd disY ny j) ∧
      temp (meshPoint p.xStart p.xEnd disX nx i) (meshPoint p.yStart p.yEnd disY ny j) ≤ hot) :
    ∃ mem v, Heat.mainNonUniform p disX disY temp junk order orders = .ok (mem, v) ∧ ∀ i j, i < nx → j < ny → ∃ x,
      View.get mem v [[(Dim.x, BitVec.ofNat 64 (i + 1))], [(Dim.y, BitVec.ofNat 64 (j + 1))]] = .ok x ∧ cold ≤ x ∧ x ≤ hot := by
  obtain ⟨mem, v, m1, m2⟩ := C77_non_uniform h temp junk order ho orders hos
  refine ⟨mem, v, m1, fun i j hi hj => ⟨_, m2 i j hi hj, ?_⟩⟩
  clear m1 m2
  have hx := h.x2; have hy := h.y2
  have hsp := h.speed_pos
  have hts := h.ts
  obtain ⟨hM, hM0⟩ : 0 < timeStepOf p M ∧ timeStepOf p M * (2 * (p.kx * mx + p.ky * my)) ≤ 1 := by
    have hc := h.cover
    have hM : (0 : K) < M := by
      rcases Nat.eq_zero_or_pos M with h0 | h0
      · rw [h0, Nat.cast_zero, zero_mul] at hc; linarith
      · exact_mod_cast h0
    refine ⟨div_pos (by linarith) hM, ?_⟩
    rw [mul_one_div, le_div_iff₀ (by linarith)] at hc
    rw [timeStepOf, div_mul_eq_mul_div, div_le_one hM]
    exact hc
  have hgx := h.gx; have hgy := h.gy
  have hk1 := h.kxp; have hk2 := h.kyp
  have px := gaps_pos (fun _ _ => meshPoint_lt h.xs h.x2 h.dx) h.x2
  have py := gaps_pos (fun _ _ => meshPoint_lt h.ys h.y2 h.dy) h.y2
  revert ht hgx hgy px py
  generalize leftGap (meshPoint p.xStart p.xEnd disX nx) nx = lx
  generalize rightGap (meshPoint p.xStart p.xEnd disX nx) nx = rx
  generalize leftGap (meshPoint p.yStart p.yEnd disY ny) ny = ly
  generalize rightGap (meshPoint p.yStart p.yEnd disY ny) ny = ry
  generalize timeStepOf p M = dt at hM hM0 ⊢
  intro ht hgx hgy px py
  have key : ∀ (u : Nat → Nat → K), (∀ i j, i < nx → j < ny → cold ≤ u i j ∧ u i j ≤ hot) → ∀ i j, i < nx → j < ny →
      cold ≤ meshStep p.kx p.ky dt lx rx ly ry nx ny u i j ∧ meshStep p.kx p.ky dt lx rx ly ry nx ny u i j ≤ hot := by
    intro u hu i j hi hj
    have m1 : ∀ k, k % nx < nx := fun k => Nat.mod_lt _ (by omega)
    have m2 : ∀ k, k % ny < ny := fun k => Nat.mod_lt _ (by omega)
    have a1 := hu i j hi hj
    have a2 := hu _ j (m1 (i + 1)) hj
    have a3 := hu _ j (m1 (i + nx - 1)) hj
    have a4 := hu i _ hi (m2 (j + 1))
    have a5 := hu i _ hi (m2 (j + ny - 1))
    have w1 := weights (px i).1 (px i).2
    have w2 := weights (py j).1 (py j).2
    have g1 := hgx.1 i hi
    have g2 := hgy.1 j hj
    have p1 : 0 < 2 / (rx i * (lx i + rx i)) := div_pos two_pos (mul_pos (px i).2 (add_pos (px i).1 (px i).2))
    have p2 : 0 < 2 / (lx i * (lx i + rx i)) := div_pos two_pos (mul_pos (px i).1 (add_pos (px i).1 (px i).2))
    have p3 : 0 < 2 / (ry j * (ly j + ry j)) := div_pos two_pos (mul_pos (py j).2 (add_pos (py j).1 (py j).2))
    have p4 : 0 < 2 / (ly j * (ly j + ry j)) := div_pos two_pos (mul_pos (py j).1 (add_pos (py j).1 (py j).2))
    simp only [meshStep, secondDiff_between (px i).1 (px i).2, secondDiff_between (py j).1 (py j).2]
    simp only at g1 g2
    generalize 2 / (rx i * (lx i + rx i)) = A at *
    generalize 2 / (lx i * (lx i + rx i)) = B at *
    generalize 1 / (lx i * rx i) = C at *
    generalize 2 / (ry j * (ly j + ry j)) = D at *
    generalize 2 / (ly j * (ly j + ry j)) = E at *
    generalize 1 / (ly j * ry j) = F at *
    have c1 : 0 ≤ dt * p.kx * A := by positivity
    have c2 : 0 ≤ dt * p.kx * B := by positivity
    have c3 : 0 ≤ dt * p.ky * D := by positivity
    have c4 : 0 ≤ dt * p.ky * E := by positivity
    have c5 : 0 ≤ 1 - dt * p.kx * A - dt * p.kx * B - dt * p.ky * D - dt * p.ky * E := by
      have e1 : dt * p.kx * A + dt * p.kx * B = dt * (2 * (p.kx * C)) := by
        rw [← mul_add, w1]; ring
      have e2 : dt * p.ky * D + dt * p.ky * E = dt * (2 * (p.ky * F)) := by
        rw [← mul_add, w2]; ring
      have e3 : dt * (2 * (p.kx * C)) + dt * (2 * (p.ky * F)) ≤ dt * (2 * (p.kx * mx + p.ky * my)) := by
        rw [← mul_add]
        refine mul_le_mul_of_nonneg_left ?_ hM.le
        have := mul_le_mul_of_nonneg_left g1 hk1.le
        have := mul_le_mul_of_nonneg_left g2 hk2.le
        linarith
      linarith
    have e : ∀ c r l t b : K, c + dt * (p.kx * (A * r + B * l - 2 * C * c) + p.ky * (D * t + E * b - 2 * F * c)) =
        (1 - dt * p.kx * A - dt * p.kx * B - dt * p.ky * D - dt * p.ky * E) * c + dt * p.kx * A * r + dt * p.kx * B * l
          + dt * p.ky * D * t + dt * p.ky * E * b := by
      intro c r l t b
      rw [← w1, ← w2]; ring
    rw [e]
    constructor
    · have b1 := mul_le_mul_of_nonneg_left a1.1 c5
      have b2 := mul_le_mul_of_nonneg_left a2.1 c1
      have b3 := mul_le_mul_of_nonneg_left a3.1 c2
      have b4 := mul_le_mul_of_nonneg_left a4.1 c3
      have b5 := mul_le_mul_of_nonneg_left a5.1 c4
      linarith
    · have b1 := mul_le_mul_of_nonneg_left a1.2 c5
      have b2 := mul_le_mul_of_nonneg_left a2.2 c1
      have b3 := mul_le_mul_of_nonneg_left a3.2 c2
      have b4 := mul_le_mul_of_nonneg_left a4.2 c3
      have b5 := mul_le_mul_of_nonneg_left a5.2 c4
      linarith
  have all : ∀ (n : Nat) (u : Nat → Nat → K), (∀ i j, i < nx → j < ny → cold ≤ u i j ∧ u i j ≤ hot) → ∀ i j, i < nx → j < ny →
      cold ≤ (meshStep p.kx p.ky dt lx rx ly ry nx ny)^[n] u i j ∧ (meshStep p.kx p.ky dt lx rx ly ry nx ny)^[n] u i j ≤ hot := by
    intro n
    induction n with
    | zero => intro u hu i j hi hj; exact hu i j hi hj
    | succ n ih =>
      intro u hu i j hi hj
      exact ih _ (fun i j hi hj => key u hu i j hi hj) i j hi hj
  exact all M _ ht i j hi hj

end

/-! ## Conservation -/

/-- Half of the distance between the neighbours of a point. -/
def cellSize (l r : Nat → K) (i : Nat) : K := (l i + r i) / 2

/-- The heat: the sum of the temperatures, each times the area around its point. -/
def totalHeat (lx rx ly ry : Nat → K) (nx ny : Nat) (u : Nat → Nat → K) : K :=
  ∑ i ∈ Finset.range nx, ∑ j ∈ Finset.range ny, cellSize lx rx i * cellSize ly ry j * u i j

theorem flux_sum {n : Nat} (hn : 2 ≤ n) {l r : Nat → K} (hl : ∀ i, 0 < l i) (hr : ∀ i, 0 < r i)
    (hm : ∀ i, i < n → r i = l ((i + 1) % n)) (u : Nat → K) :
    ∑ i ∈ Finset.range n, cellSize l r i * secondDiff (l i) (r i) (u ((i + 1) % n)) (u i) (u ((i + n - 1) % n)) = 0 := by
  have e : ∀ i, cellSize l r i * secondDiff (l i) (r i) (u ((i + 1) % n)) (u i) (u ((i + n - 1) % n)) =
      (u ((i + 1) % n) - u i) / r i - (u i - u ((i + n - 1) % n)) / l i := by
    intro i
    have h1 := hl i; have h2 := hr i
    have : l i + r i ≠ 0 := by positivity
    rw [cellSize, secondDiff]
    field_simp
  rw [Finset.sum_congr rfl (fun i _ => e i), Finset.sum_sub_distrib]
  have s := sum_succ_mod (fun i => (u i - u ((i + n - 1) % n)) / l i) n
  rw [← s, sub_eq_zero]
  refine Finset.sum_congr rfl (fun i hi => ?_)
  have hi := Finset.mem_range.1 hi
  rw [hm i hi]
  congr 3
  rcases Nat.lt_or_ge (i + 1) n with h | h
  · rw [Nat.mod_eq_of_lt h, show i + 1 + n - 1 = i + n by omega, Nat.add_mod_right, Nat.mod_eq_of_lt hi]
  · rw [show i + 1 = n by omega, Nat.mod_self, show 0 + n - 1 = i by omega, Nat.mod_eq_of_lt hi]

theorem meshStep_heat {kx ky dt : K} {lx rx ly ry : Nat → K} {nx ny : Nat} (hx : 2 ≤ nx) (hy : 2 ≤ ny)
    (px : ∀ i, 0 < lx i ∧ 0 < rx i) (py : ∀ i, 0 < ly i ∧ 0 < ry i) (mx : ∀ i, i < nx → rx i = lx ((i + 1) % nx))
    (my : ∀ i, i < ny → ry i = ly ((i + 1) % ny)) (u : Nat → Nat → K) :
    totalHeat lx rx ly ry nx ny (meshStep kx ky dt lx rx ly ry nx ny u) = totalHeat lx rx ly ry nx ny u := by
  have e : ∀ i j, cellSize lx rx i * cellSize ly ry j * meshStep kx ky dt lx rx ly ry nx ny u i j =
      cellSize lx rx i * cellSize ly ry j * u i j
      + dt * kx * cellSize ly ry j * (cellSize lx rx i *
          secondDiff (lx i) (rx i) (u ((i + 1) % nx) j) (u i j) (u ((i + nx - 1) % nx) j))
      + dt * ky * cellSize lx rx i * (cellSize ly ry j *
          secondDiff (ly j) (ry j) (u i ((j + 1) % ny)) (u i j) (u i ((j + ny - 1) % ny))) := by
    intro i j
    rw [meshStep]; ring
  rw [totalHeat, totalHeat]
  simp only [e, Finset.sum_add_distrib]
  have z1 : ∑ i ∈ Finset.range nx, ∑ j ∈ Finset.range ny, dt * kx * cellSize ly ry j * (cellSize lx rx i *
      secondDiff (lx i) (rx i) (u ((i + 1) % nx) j) (u i j) (u ((i + nx - 1) % nx) j)) = 0 := by
    rw [Finset.sum_comm]
    refine Finset.sum_eq_zero (fun j _ => ?_)
    rw [← Finset.mul_sum, flux_sum hx (fun i => (px i).1) (fun i => (px i).2) mx (fun i => u i j), mul_zero]
  have z2 : ∑ i ∈ Finset.range nx, ∑ j ∈ Finset.range ny, dt * ky * cellSize lx rx i * (cellSize ly ry j *
      secondDiff (ly j) (ry j) (u i ((j + 1) % ny)) (u i j) (u i ((j + ny - 1) % ny))) = 0 := by
    refine Finset.sum_eq_zero (fun i _ => ?_)
    rw [← Finset.mul_sum, flux_sum hy (fun i => (py i).1) (fun i => (py i).2) my (fun j => u i j), mul_zero]
  rw [z1, z2, add_zero, add_zero]

theorem gaps_match {x : Nat → K} {n : Nat} (hn : 2 ≤ n) (he : x 1 - x 0 = x (n - 1) - x (n - 2)) (i : Nat) (hi : i < n) :
    rightGap x n i = leftGap x n ((i + 1) % n) := by
  rw [rightGap, leftGap]
  rcases Nat.lt_or_ge (i + 1) n with h | h
  · rw [if_neg (by omega), Nat.mod_eq_of_lt h, if_neg (by omega), show i + 1 - 1 = i by omega]
  · rw [if_pos (by omega), show i + 1 = n by omega, Nat.mod_self, if_pos rfl, he]

section

variable {p : Params K} {nx ny M : Nat} {disX disY : Nat → K} {mx my : K}

/-- The heat at the end is the initial one if the first and the last distance are the same along each dimension. This part of
the claim fails without that hypothesis: `C77_not_conserved`. -/
theorem C77_conservation_partial [FloorRing K] (h : MeshSetting p disX disY nx ny M mx my)
    (ex : meshPoint p.xStart p.xEnd disX nx 1 - meshPoint p.xStart p.xEnd disX nx 0 =
      meshPoint p.xStart p.xEnd disX nx (nx - 1) - meshPoint p.xStart p.xEnd disX nx (nx - 2))
    (ey : meshPoint p.yStart p.yEnd disY ny 1 - meshPoint p.yStart p.yEnd disY ny 0 =
      meshPoint p.yStart p.yEnd disY ny (ny - 1) - meshPoint p.yStart p.yEnd disY ny (ny - 2))
    (temp : K → K → K) (junk : Nat → K)
    (order : List (List I64)) (ho : order.Perm (Support.policy [BitVec.ofNat 64 nx, BitVec.ofNat 64 ny])) (orders : Nat → Orders)
    (hos : ∀ k, OrdersOk nx ny (orders k)) :
    ∃ mem v, ∃ x : Nat → Nat → K, Heat.mainNonUniform p disX disY temp junk order orders = .ok (mem, v) ∧
      (∀ i j, i < nx → j < ny →
        View.get mem v [[(Dim.x, BitVec.ofNat 64 (i + 1))], [(Dim.y, BitVec.ofNat 64 (j + 1))]] = .ok (x i j)) ∧
      totalHeat (leftGap (meshPoint p.xStart p.xEnd disX nx) nx) (rightGap (meshPoint p.xStart p.xEnd disX nx) nx)
        (leftGap (meshPoint p.yStart p.yEnd disY ny) ny) (rightGap (meshPoint p.yStart p.yEnd disY ny) ny) nx ny x =
      totalHeat (leftGap (meshPoint p.xStart p.xEnd disX nx) nx) (rightGap (meshPoint p.xStart p.xEnd disX nx) nx)
        (leftGap (meshPoint p.yStart p.yEnd disY ny) ny) (rightGap (meshPoint p.yStart p.yEnd disY ny) ny) nx ny
        (fun i j => temp (meshPoint p.xStart p.xEnd disX nx i) (meshPoint p.yStart p.yEnd disY ny j)) := by
  obtain ⟨mem, v, m1, m2⟩ := C77_non_uniform h temp junk order ho orders hos
  refine ⟨mem, v, _, m1, m2, ?_⟩
  have all : ∀ (n : Nat) (u : Nat → Nat → K),
      totalHeat (leftGap (meshPoint p.xStart p.xEnd disX nx) nx) (rightGap (meshPoint p.xStart p.xEnd disX nx) nx)
        (leftGap (meshPoint p.yStart p.yEnd disY ny) ny) (rightGap (meshPoint p.yStart p.yEnd disY ny) ny) nx ny
        ((meshStep p.kx p.ky (timeStepOf p M)
          (leftGap (meshPoint p.xStart p.xEnd disX nx) nx) (rightGap (meshPoint p.xStart p.xEnd disX nx) nx)
          (leftGap (meshPoint p.yStart p.yEnd disY ny) ny) (rightGap (meshPoint p.yStart p.yEnd disY ny) ny) nx ny)^[n] u) =
      totalHeat (leftGap (meshPoint p.xStart p.xEnd disX nx) nx) (rightGap (meshPoint p.xStart p.xEnd disX nx) nx)
        (leftGap (meshPoint p.yStart p.yEnd disY ny) ny) (rightGap (meshPoint p.yStart p.yEnd disY ny) ny) nx ny u := by
    intro n
    induction n with
    | zero => intro u; rfl
    | succ n ih =>
      intro u
      rw [Function.iterate_succ_apply, ih, meshStep_heat h.x2 h.y2 (gaps_pos (fun _ _ => meshPoint_lt h.xs h.x2 h.dx) h.x2)
        (gaps_pos (fun _ _ => meshPoint_lt h.ys h.y2 h.dy) h.y2) (gaps_match h.x2 ex) (gaps_match h.y2 ey)]
  exact all M _

end

/-! ## What is not periodic -/

def meshParams : Params Rat := ⟨0, 2, 3, 1, 0, 2, 3, 1, 0, 1 / 9⟩

def meshOrders : Orders :=
  ⟨fun _ => MDSpan.indices [3], fun _ => MDSpan.indices [3], fun _ => MDSpan.indices [3], fun _ => MDSpan.indices [3],
    Support.policy [3, 3]⟩

def dis10 : Nat → Rat := fun _ => 1 / 10

private theorem meshX : (leftGap (meshPoint 0 2 dis10 3) 3 0 = 9 / 10 ∧ leftGap (meshPoint 0 2 dis10 3) 3 1 = 11 / 10 ∧
    leftGap (meshPoint 0 2 dis10 3) 3 2 = 9 / 10) ∧ rightGap (meshPoint 0 2 dis10 3) 3 0 = 11 / 10 ∧
    rightGap (meshPoint 0 2 dis10 3) 3 1 = 9 / 10 ∧ rightGap (meshPoint 0 2 dis10 3) 3 2 = 11 / 10 := by
  decide +kernel

theorem meshSetting : MeshSetting meshParams dis10 (fun _ => 0) 3 3 1 (100 / 99) 1 := by
  refine ⟨by decide +kernel, by decide +kernel, by decide +kernel, by decide +kernel, by decide +kernel, rfl, rfl, by omega,
    by omega, by omega, by omega, ?_, ?_, ?_, ?_, ?_, ?_, by omega⟩
  · intro i _ _; norm_num [dis10]
  · intro i _ _; norm_num
  · refine ⟨?_, 0, by omega, by decide +kernel⟩
    intro i hi
    obtain rfl | rfl | rfl : i = 0 ∨ i = 1 ∨ i = 2 := by omega
    all_goals decide +kernel
  · refine ⟨?_, 0, by omega, by decide +kernel⟩
    intro i hi
    obtain rfl | rfl | rfl : i = 0 ∨ i = 1 ∨ i = 2 := by omega
    all_goals decide +kernel
  · decide +kernel
  · intro m hm
    rcases Nat.eq_zero_or_pos m with h | h
    · subst h
      exact absurd hm (by decide +kernel)
    · exact h

theorem meshOrdersOk : OrdersOk 3 3 meshOrders := ⟨.refl _, .refl _, .refl _, .refl _, .refl _⟩

/-- The heat changes for the points 0, 11/10, 2: the program takes 9/10 as the distance from the last point to the first one
at the first point, and 11/10 at the last point. -/
theorem C77_not_conserved : ∃ (p : Params Rat) (disX disY : Nat → Rat) (nx ny M : Nat) (mx my : Rat) (temp : Rat → Rat → Rat)
    (junk : Nat → Rat) (order : List (List I64)) (orders : Nat → Orders) (mem : Mem Rat) (v : View (Dom Dim)) (x : Nat → Nat → Rat),
    MeshSetting p disX disY nx ny M mx my ∧ order.Perm (Support.policy [BitVec.ofNat 64 nx, BitVec.ofNat 64 ny]) ∧
    (∀ k, OrdersOk nx ny (orders k)) ∧ Heat.mainNonUniform p disX disY temp junk order orders = .ok (mem, v) ∧
      (∀ i j, i < nx → j < ny →
        View.get mem v [[(Dim.x, BitVec.ofNat 64 (i + 1))], [(Dim.y, BitVec.ofNat 64 (j + 1))]] = .ok (x i j)) ∧
      totalHeat (leftGap (meshPoint p.xStart p.xEnd disX nx) nx) (rightGap (meshPoint p.xStart p.xEnd disX nx) nx)
        (leftGap (meshPoint p.yStart p.yEnd disY ny) ny) (rightGap (meshPoint p.yStart p.yEnd disY ny) ny) nx ny x ≠
      totalHeat (leftGap (meshPoint p.xStart p.xEnd disX nx) nx) (rightGap (meshPoint p.xStart p.xEnd disX nx) nx)
        (leftGap (meshPoint p.yStart p.yEnd disY ny) ny) (rightGap (meshPoint p.yStart p.yEnd disY ny) ny) nx ny
        (fun i j => temp (meshPoint p.xStart p.xEnd disX nx i) (meshPoint p.yStart p.yEnd disY ny j)) := by
  obtain ⟨mem, v, m1, m2⟩ := C77_non_uniform meshSetting (fun x _ => if x = 0 then 1 else 0) (fun _ => 0)
    (Support.policy [3, 3]) (.refl _) (fun _ => meshOrders) (fun _ => meshOrdersOk)
  exact ⟨_, _, _, _, _, _, _, _, _, _, _, _, mem, v, _, meshSetting, .refl _, fun _ => meshOrdersOk, m1, m2, by decide +kernel⟩

/-- The coordinates of the ghost points are those of the points of one period of length `xEnd - xStart`, in which the first and
the last point are the same; the program gives them different temperatures although they have the same initially. -/
theorem C77_not_periodic : ∃ (p : Params Rat) (disX disY : Nat → Rat) (nx ny M : Nat) (mx my : Rat) (temp : Rat → Rat → Rat)
    (junk : Nat → Rat) (order : List (List I64)) (orders : Nat → Orders) (mem : Mem Rat) (v : View (Dom Dim)) (x : Nat → Nat → Rat),
    MeshSetting p disX disY nx ny M mx my ∧ order.Perm (Support.policy [BitVec.ofNat 64 nx, BitVec.ofNat 64 ny]) ∧
    (∀ k, OrdersOk nx ny (orders k)) ∧ Heat.mainNonUniform p disX disY temp junk order orders = .ok (mem, v) ∧
      (∀ i j, i < nx → j < ny →
        View.get mem v [[(Dim.x, BitVec.ofNat 64 (i + 1))], [(Dim.y, BitVec.ofNat 64 (j + 1))]] = .ok (x i j)) ∧
      (∀ y, temp p.xStart y = temp p.xEnd y) ∧ x 0 0 ≠ x (nx - 1) 0 := by
  obtain ⟨mem, v, m1, m2⟩ := C77_non_uniform meshSetting (fun x _ => if x = 11 / 10 then 1 else 0) (fun _ => 0)
    (Support.policy [3, 3]) (.refl _) (fun _ => meshOrders) (fun _ => meshOrdersOk)
  exact ⟨_, _, _, _, _, _, _, _, _, _, _, _, mem, v, _, meshSetting, .refl _, fun _ => meshOrdersOk, m1, m2,
    fun _ => by decide +kernel, by decide +kernel⟩

/-- The programs on three by three points. -/
example : (do
    let (mem, v) ← Heat.mainNonUniform meshParams dis10 (fun _ => 0) (fun x _ => if x = 11 / 10 then 1 else 0) (fun _ => 0)
      (Support.policy [3, 3]) (fun _ => meshOrders)
    View.get mem v [[(Dim.x, 1)], [(Dim.y, 1)]]) = .ok (1 / 9 * (10 / 11)) := by decide +kernel

example : (do
    let (mem, v) ← Heat.mainDistances meshParams (fun x _ => if x = 1 then 1 else 0) (fun _ => 0)
      (Support.policy [3, 3]) (fun _ => meshOrders)
    View.get mem v [[(Dim.x, 1)], [(Dim.y, 1)]]) = .ok (1 / 9) := by decide +kernel

end DDC.Props
