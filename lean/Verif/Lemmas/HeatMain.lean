import Verif.Lemmas.Heat
import Mathlib.Algebra.Order.Floor.Ring

/-!
# The domains, the time step and the allocations of the heat equation
-/

namespace DDC.Heat

open Tup Spec Props Grid2
open One (seg el vec)

set_option linter.unusedSectionVars false

theorem subVec_nat (t : Dim) {x n : Nat} (h : n ≤ x) : Elem.subVec (el t x) (vec t n) = .ok (el t (x - n)) := by
  have : Elem.subVec (el t x) (vec t n) = .ok [(t, BitVec.ofNat 64 x - BitVec.ofNat 64 n)] := by
    simp [Elem.subVec, Tup.opAssign, Tup.modify, el, vec]
  rw [this, One.ofNat_sub h]; rfl

theorem axis_ok (t : Dim) (n : Nat) :
    Axis.ofGhosted (seg t 1 (n + 1)) (seg t 0 (n + 2)) (seg t 0 1) (seg t (n + 1) (n + 2)) = .ok (axisOf t n) := by
  simp only [Axis.ofGhosted, One.front, One.extents_nat t (show 1 ≤ n + 1 by omega), Res.ok_bind,
    show n + 1 - 1 = n by omega, subVec_nat t (show n ≤ n + 1 by omega), One.extents_nat t (show n + 1 ≤ n + 2 by omega),
    One.ofSize_nat, One.addVec_nat, One.extents_nat t (show 0 ≤ 1 by omega), show n + 1 - n = 1 by omega,
    show n + 2 - (n + 1) = 1 by omega, show 1 - 0 = 1 by omega, show 0 + n = n by omega, axisOf]

section scheme

variable {K : Type} [Field K] [LinearOrder K] [IsStrictOrderedRing K]

theorem initGhosted1_ok (t : Dim) (a b : K) (hab : a < b) (n : Nat) (hn : 1 < n) (h : n + 2 < 2 ^ 63) :
    Uniform.initGhosted1 t a b [(t, BitVec.ofNat 64 n)] [(t, 1)] =
      .ok (⟨a - 1 * ((b - a) / ((n - 1 : Nat) : K)), (b - a) / ((n - 1 : Nat) : K), el t 0⟩, seg t 1 (n + 1), seg t 0 (n + 2),
        seg t 0 1, seg t (n + 1) (n + 2)) := by
  obtain ⟨s, hs⟩ : ∃ s, s = (b - a) / ((n - 1 : Nat) : K) := ⟨_, rfl⟩
  have hs0 : 0 < s := by rw [hs]; exact step_pos hab hn
  have href : (Elem.createReference t : Elem Dim) = el t 0 := rfl
  obtain ⟨d1, d2, d3, d4, d5, d6⟩ := ghost_domains t 1 n 1 (by omega)
  have h1 : decide (1 < ((n : Nat) : Int)) = true := by simpa using hn
  have e1 : (1 : I64) = BitVec.ofNat 64 1 := rfl
  rw [Uniform.initGhosted1, Uniform.initGhosted, e1]
  simp only [hab, decide_true, Res.guardAbort_true, Vect.value,
    One.toInt_ofNat (show n < 2 ^ 63 by omega), One.toInt_ofNat (show 1 < 2 ^ 63 by omega), h1, Res.ok_bind]
  rw [← e1, One.subInt_nat t (by omega) (by omega), Res.ok_bind, e1]
  simp only [Res.ok_bind, One.toInt_ofNat (show n - 1 < 2 ^ 63 by omega), Int.cast_natCast, ← hs,
    Uniform.mk', hs0, decide_true, Res.guardAbort_true, Res.pure_eq, href]
  rw [← vec, ← vec, d1, Res.ok_bind, d2, Res.ok_bind, d3, Res.ok_bind, d4, Res.ok_bind, d5,
    Res.ok_bind, d6]
  simp only [Res.ok_bind, Nat.cast_one, show n + 1 + 1 = n + 2 by omega, show 1 + n = n + 1 by omega]

theorem init_ok (t : Dim) (a b : K) (hab : a < b) (n : Nat) (hn : 1 < n) (hn' : n < 2 ^ 63) :
    Uniform.init t a b [(t, BitVec.ofNat 64 n)] = .ok (⟨a, (b - a) / ((n - 1 : Nat) : K), el t 0⟩, seg t 0 n) := by
  obtain ⟨s, hs⟩ : ∃ s, s = (b - a) / ((n - 1 : Nat) : K) := ⟨_, rfl⟩
  have hs0 : 0 < s := by rw [hs]; exact step_pos hab hn
  have h1 : decide (1 < ((n : Nat) : Int)) = true := by simpa using hn
  have h0 : (Elem.createReference t : Elem Dim) = el t 0 := rfl
  simp only [Uniform.init, hab, decide_true, Res.guardAbort_true, Vect.value, One.toInt_ofNat hn', h1, Res.ok_bind]
  rw [One.subInt_nat t hn' (by omega), Res.ok_bind]
  simp only [Vect.value, Res.ok_bind, One.toInt_ofNat (show n - 1 < 2 ^ 63 by omega), Int.cast_natCast, ← hs]
  simp only [Uniform.mk', hs0, decide_true, Res.guardAbort_true, Res.ok_bind, h0, Res.pure_eq]
  rw [← vec, One.ofSize_nat]
  simp

theorem ceilCast_ok [FloorRing K] {x : K} {M : Nat} (h : ⌈x⌉ = (M : Int)) (hM : M < 2 ^ 63) :
    ceilCast x = .ok (BitVec.ofNat 64 M) := by
  have h0 : (0 : K) ≤ (M : K) + 1 / 5 := by positivity
  have h1 : ⌊(M : K) + 1 / 5⌋ = (M : Int) := by
    rw [Int.floor_eq_iff]
    constructor
    · simp
    · push_cast; norm_num
  rw [ceilCast, h]
  simp only [Int.cast_natCast, h0, if_true, h1]
  rw [if_pos ⟨by omega, by omega⟩]
  simp

theorem time_ok (M : Nat) (hM : M + 1 < 2 ^ 63) :
    Dom.removeFirst (seg Dim.t 0 (M + 1)) [(Dim.t, 1)] = .ok (seg Dim.t 1 (M + 1)) ∧
      Dom.size (seg Dim.t 1 (M + 1)) = .ok (BitVec.ofNat 64 M) := by
  have e1 : [(Dim.t, (1 : I64))] = vec Dim.t 1 := rfl
  constructor
  · rw [e1, Dom.removeFirst, One.front, One.addVec_nat, Res.ok_bind, One.extents_nat Dim.t (by omega), Res.ok_bind, vec, vec,
      One.vsub_nat Dim.t (by omega) (by omega), Res.ok_bind, ← vec, One.ofSize_nat]
    congr 2; omega
  · rw [Dom.size, seg]
    simp [Dom.sizeAux, Dom.extent, Dom.beg, Dom.fin, Tup.select, Tup.ofTuples, Tup.take, BitVec.ofNat_add, Elem.sub, Tup.zipVals, TypeSeq.same,
      TypeSeq.contains]
    exact BitVec.add_sub_cancel _ _

theorem allocate_ok {nx ny : Nat} (hx : 1 ≤ nx) (hy : 1 ≤ ny) (hx2 : nx + 2 < 2 ^ 63) (hy2 : ny + 2 < 2 ^ 63)
    (hc : (nx + 2) * (ny + 2) < 2 ^ 64) {xOf yOf : Elem Dim → Res K} {xs ys : Nat → K}
    (hX : ∀ i, 1 ≤ i → i < nx + 1 → xOf (el Dim.x i) = .ok (xs i)) (hY : ∀ j, 1 ≤ j → j < ny + 1 → yOf (el Dim.y j) = .ok (ys j))
    (temp : K → K → K) (junk : Nat → K) {order : List (List I64)}
    (ho : order.Perm (Support.policy [BitVec.ofNat 64 nx, BitVec.ofNat 64 ny])) :
    ∃ mem last next s pos N, allocate (axisOf .x nx) (axisOf .y ny) xOf yOf temp junk order = .ok (mem, last, next) ∧
      Grid nx ny N pos s ∧ last.span = s ∧ next.span = s ∧ last.buf ≠ next.buf ∧ Alloc mem last.buf N ∧ Alloc mem next.buf N ∧
      Holds nx ny pos mem last.buf (fun i j => temp (xs i) (ys j)) := by
  obtain ⟨s, pos, s1, s2, s3, s4⟩ := chart_ofDomain (tx := Dim.x) (ty := Dim.y) (a := 0) (b := nx + 2) (c := 0) (d := ny + 2) xy
    (by omega) hx2 (by omega) hy2 (by simpa using hc)
  simp only [Nat.sub_zero] at s2
  obtain ⟨N, hN⟩ : ∃ N, N = (nx + 2) * (ny + 2) := ⟨_, rfl⟩
  rw [← hN] at s2
  have hN0 : 0 < N := by rw [hN]; positivity
  have G : Grid nx ny N pos s :=
    ⟨s3, fun i j i' j' a b c d e => s4 i j i' j' (by omega) a (by omega) b (by omega) c (by omega) d e, s2, hx, hy⟩
  obtain ⟨es, e1, e2⟩ := schedule2 (a := 1) (b := nx + 1) (c := 1) (d := ny + 1) (by omega) (by omega) (by omega) (by omega)
    (sched := order) (by simpa using ho)
  obtain ⟨l, hl⟩ : ∃ l : List K, l = (List.range N).map junk := ⟨_, rfl⟩
  have hlen : l.length = N := by rw [hl]; simp
  have hA0 : Alloc [l, l] 0 N := ⟨l, rfl, hlen⟩
  have hA1 : Alloc [l, l] 1 N := ⟨l, rfl, hlen⟩
  have hidx : ∀ i j, i < nx + 2 → j < ny + 2 → idx Dim.x (pt Dim.x Dim.y i j) = i ∧ idx Dim.y (pt Dim.x Dim.y i j) = j := by
    intro i j hi hj
    constructor
    · rw [idx, pt, get_cons, if_pos rfl]; exact toNat_small (by omega)
    · rw [idx, pt, get_cons, if_neg (by decide), get_cons, if_pos rfl]; exact toNat_small (by omega)
  let posE : Elem Dim → Nat := fun e => pos (idx Dim.x e) (idx Dim.y e)
  let valE : Elem Dim → K := fun e => temp (xs (idx Dim.x e)) (ys (idx Dim.y e))
  have hE : ∀ i j, i < nx + 2 → j < ny + 2 → posE (pt Dim.x Dim.y i j) = pos i j ∧
      valE (pt Dim.x Dim.y i j) = temp (xs i) (ys j) := by
    intro i j hi hj
    obtain ⟨h1, h2⟩ := hidx i j hi hj
    simp only [posE, valE, h1, h2, and_self]
  have hlt : ∀ i j, i < nx + 2 → j < ny + 2 → pos i j < N := by
    intro i j hi hj
    have := G.chart.lt_cells xy (i := i) (j := j) (by omega) (by omega) (by omega) (by omega)
    rwa [G.cells] at this
  obtain ⟨m, k1, k2, k3⟩ := fold_cells (f := fun (ixy : Elem Dim) (mem : Mem K) => (do
      let ix ← Tup.select [.x] ixy
      let x ← xOf ix
      let iy ← Tup.select [.y] ixy
      let y ← yOf iy
      View.put mem (⟨0, 0, .right, s⟩ : View (Dom Dim)) [ixy] (temp x y) : Res (Mem K))) (bn := 0) posE valE [l, l] es
    (by
      intro e he e' he' h
      obtain ⟨i, j, h1, h2, h3, h4, rfl⟩ := (e1 e).1 he
      obtain ⟨i', j', h1', h2', h3', h4', rfl⟩ := (e1 e').1 he'
      rw [(hE i j (by omega) (by omega)).1, (hE i' j' (by omega) (by omega)).1] at h
      obtain ⟨rfl, rfl⟩ := G.inj i j i' j' (by omega) (by omega) (by omega) (by omega) h
      rfl)
    (by
      intro e he m hm1 hm2
      obtain ⟨i, j, h1, h2, h3, h4, rfl⟩ := (e1 e).1 he
      have hs : (cell m 0 (pos i j)).isSome := by
        rw [hm2, hA0.isSome]; exact hlt i j (by omega) (by omega)
      obtain ⟨m', g1, g2⟩ := Mem.write_ok hs (temp (xs i) (ys j))
      refine ⟨m', ?_, ?_⟩
      · simp only [select_x, select_y, Res.ok_bind, hX i h1 h2, hY j h3 h4, View.put,
          G.chart.cell i j (by omega) (by omega) (by omega) (by omega), g1]
      · intro b p
        rw [g2, (hE i j (by omega) (by omega)).1, (hE i j (by omega) (by omega)).2])
    (by
      intro e he
      obtain ⟨i, j, h1, h2, h3, h4, rfl⟩ := (e1 e).1 he
      rw [(hE i j (by omega) (by omega)).1, hA0.isSome]
      exact hlt i j (by omega) (by omega))
  refine ⟨m, ⟨0, 0, .right, s⟩, ⟨1, 0, .right, s⟩, s, pos, N, ?_, G, rfl, rfl, by simp, ?_, ?_, ?_⟩
  · have o1 := ofDomains_xy 0 (nx + 2) 0 (ny + 2) (by omega) (by omega) (by omega) (by omega)
    have o2 := ofDomains_xy 1 (nx + 1) 1 (ny + 1) (by omega) (by omega) (by omega) (by omega)
    have n1 : newChunk Dom.spanOps junk 0 ([] : Mem K) (seg2 Dim.x Dim.y 0 (nx + 2) 0 (ny + 2)) =
        .ok ([l], ⟨0, 0, .right, s⟩) := by
      rw [newChunk, s1]
      simp [Mem.alloc, s2, hl]
    have n2 : newChunk Dom.spanOps junk 0 ([l] : Mem K) (seg2 Dim.x Dim.y 0 (nx + 2) 0 (ny + 2)) =
        .ok ([l, l], ⟨1, 0, .right, s⟩) := by
      rw [newChunk, s1]
      simp [Mem.alloc, s2, hl]
    simp only [allocate, axisOf, o1, o2, Res.ok_bind, n1, n2]
    rw [e2, k1, Res.ok_bind]
  · refine hA0.congr hN0 (fun p => ?_)
    by_cases h : ∃ e ∈ es, p = posE e
    · obtain ⟨e, he, rfl⟩ := h
      rw [k2 e he, hA0.isSome]
      obtain ⟨i, j, h1, h2, h3, h4, rfl⟩ := (e1 e).1 he
      rw [(hE i j (by omega) (by omega)).1]
      simp [hlt i j (by omega) (by omega)]
    · rw [k3 _ p (fun _ e he e' => h ⟨e, he, e'⟩)]
  · refine hA1.congr hN0 (fun p => ?_)
    rw [k3 _ p (fun e => absurd e Nat.one_ne_zero)]
  · intro i j h1 h2 h3 h4
    have := k2 (pt Dim.x Dim.y i j) ((e1 _).2 ⟨i, j, h1, h2, h3, h4, rfl⟩)
    rwa [(hE i j (by omega) (by omega)).1, (hE i j (by omega) (by omega)).2] at this

/-- The whole program. -/
theorem main_ok [FloorRing K] (p : Params K) {nx ny M : Nat} (hnx : p.nx = BitVec.ofNat 64 nx) (hny : p.ny = BitVec.ofNat 64 ny)
    (hx1 : 1 < nx) (hy1 : 1 < ny) (hx2 : nx + 2 < 2 ^ 63) (hy2 : ny + 2 < 2 ^ 63) (hc : (nx + 2) * (ny + 2) < 2 ^ 64)
    (hx : p.xStart < p.xEnd) (hy : p.yStart < p.yEnd) (ht : p.startTime < p.endTime) {dx dy dt : K}
    (hdx : dx = (p.xEnd - p.xStart) / ((nx - 1 : Nat) : K)) (hdy : dy = (p.yEnd - p.yStart) / ((ny - 1 : Nat) : K))
    (hM : ⌈(p.endTime - p.startTime) / (1 / 2 / (p.kx * (1 / (dx * dx)) + p.ky * (1 / (dy * dy))))⌉ = (M : Int)) (hM0 : 0 < M)
    (hM1 : M + 1 < 2 ^ 63) (hdt : dt = (p.endTime - p.startTime) / (M : K)) (temp : K → K → K) (junk : Nat → K)
    {order : List (List I64)} (ho : order.Perm (Support.policy [BitVec.ofNat 64 nx, BitVec.ofNat 64 ny]))
    {orders : Nat → Orders} (hos : ∀ k, OrdersOk nx ny (orders k)) :
    ∃ mem v s pos N, main p temp junk order orders = .ok (mem, v) ∧ Grid nx ny N pos s ∧ v.span = s ∧
      Holds nx ny pos mem v.buf ((step (· + ·) (fun _ r c l => p.kx * dt * (r - 2 * c + l) * (1 / (dx * dx)))
        (fun _ r c l => p.ky * dt * (r - 2 * c + l) * (1 / (dy * dy))) nx ny)^[M]
        (fun i j => temp (p.xStart + ((i : K) - 1) * dx) (p.yStart + ((j : K) - 1) * dy))) := by
  have hi1 := initGhosted1_ok Dim.x p.xStart p.xEnd hx nx hx1 hx2
  have hi2 := initGhosted1_ok Dim.y p.yStart p.yEnd hy ny hy1 hy2
  rw [← hdx] at hi1
  rw [← hdy] at hi2
  have hi3 := init_ok Dim.t p.startTime p.endTime ht (M + 1) (by omega) hM1
  rw [show M + 1 - 1 = M by omega, ← hdt] at hi3
  have hco : ∀ (t : Dim) (a d : K) (i : Nat), i < 2 ^ 63 →
      (⟨a - 1 * d, d, el t 0⟩ : Uniform Dim K).coordinate (el t i) = .ok (a + ((i : K) - 1) * d) := by
    intro t a d i hi
    have := coordinate_ok t (a - 1 * d) d hi
    rw [show (Elem.createReference t : Elem Dim) = el t 0 from rfl] at this
    rw [this]; congr 1; ring
  obtain ⟨mem, last, next, s, pos, N, a1, G, a3, a4, a5, a6, a7, a8⟩ := allocate_ok (nx := nx) (ny := ny) (by omega) (by omega)
    hx2 hy2 hc (xOf := (⟨p.xStart - 1 * dx, dx, el Dim.x 0⟩ : Uniform Dim K).coordinate)
    (yOf := (⟨p.yStart - 1 * dy, dy, el Dim.y 0⟩ : Uniform Dim K).coordinate)
    (xs := fun i => p.xStart + ((i : K) - 1) * dx) (ys := fun j => p.yStart + ((j : K) - 1) * dy)
    (fun i _ h => hco .x _ _ i (by omega)) (fun j _ h => hco .y _ _ j (by omega)) temp junk ho
  obtain ⟨mem', v, b1, b2, b3⟩ := timeLoop_ok (add := (· + ·)) (incX := uniformInc p.kx dt (1 / (dx * dx))) (incY := uniformInc p.ky dt (1 / (dy * dy)))
    (dX := fun _ r c l => p.kx * dt * (r - 2 * c + l) * (1 / (dx * dx)))
    (dY := fun _ r c l => p.ky * dt * (r - 2 * c + l) * (1 / (dy * dy))) G (fun _ _ _ _ _ _ => rfl) (fun _ _ _ _ _ _ => rfl)
    hos M 0 a3 a4 a5 a6 a7 a8
  refine ⟨mem', v, s, pos, N, ?_, G, b2, b3⟩
  obtain ⟨t1, t2⟩ := time_ok M hM1
  have hadd : Vect.addInt [(Dim.t, BitVec.ofNat 64 M)] 1 = .ok [(Dim.t, BitVec.ofNat 64 (M + 1))] := by
    have : (1 : I64) = BitVec.ofNat 64 1 := rfl
    rw [Vect.addInt, this, One.sAdd_nat hM1]; rfl
  have hMn : (BitVec.ofNat 64 M).toNat = M := toNat_small (by omega)
  rw [main, hnx, hny, hi1, Res.ok_bind]
  simp only [axis_ok, Res.ok_bind, hi2, ceilCast_ok hM (show M < 2 ^ 63 by omega), hadd, hi3, a1, t1, t2, hMn, b1]

end scheme

end DDC.Heat
