import Verif.Lemmas.Life
import Mathlib.Tactic.IntervalCases

/-!
# C78 — the game of life of the examples
-/

namespace DDC.Props

open Tup Spec
open Heat (Dim)
open One (el)

/-- Specification: the eight cells around a cell. -/
def neighbours (i j : Nat) : List (Nat × Nat) :=
  [(i - 1, j - 1), (i - 1, j), (i - 1, j + 1), (i, j - 1), (i, j + 1), (i + 1, j - 1), (i + 1, j), (i + 1, j + 1)]

/-- Conway's rule: the number of live neighbours. -/
def liveNeighbours (u : Nat → Nat → Bool) (i j : Nat) : Nat := (neighbours i j).countP (fun p => u p.1 p.2)

/-- The next generation on an `L × H` board whose border does not change: a live cell stays alive with two or three live
neighbours, a dead one becomes alive with three. -/
def generation (L H : Nat) (u : Nat → Nat → Bool) (i j : Nat) : Bool :=
  if i = 0 ∨ i + 1 ≥ L ∨ j = 0 ∨ j + 1 ≥ H then u i j
  else liveNeighbours u i j == 3 || (u i j && liveNeighbours u i j == 2)

/-- Three cells in a row along `x`. -/
def rowOfThree (i j : Nat) : Bool := j == 2 && (i == 1 || i == 2 || i == 3)

/-- Three cells in a row along `y`. -/
def columnOfThree (i j : Nat) : Bool := i == 2 && (j == 1 || j == 2 || j == 3)

private theorem around_eq (u : Nat → Nat → Bool) (i j : Nat) :
    Life.around u i j = (liveNeighbours u i j : Int) + (u i j).toInt := by
  rw [Life.around, liveNeighbours, neighbours]
  simp only [List.countP_cons, List.countP_nil]
  cases u (i - 1) (j - 1) <;> cases u (i - 1) j <;> cases u (i - 1) (j + 1) <;> cases u i (j - 1) <;> cases u i (j + 1) <;>
    cases u (i + 1) (j - 1) <;> cases u (i + 1) j <;> cases u (i + 1) (j + 1) <;> simp <;> ring

theorem life_next (L H : Nat) (u : Nat → Nat → Bool) : Life.next L H u = generation L H u := by
  funext i j
  rw [Life.next, generation]
  by_cases h : 1 ≤ i ∧ i + 1 < L ∧ 1 ≤ j ∧ j + 1 < H
  · rw [if_pos h, if_neg (by omega), Life.rule, around_eq]
    cases u i j
    · rw [Bool.eq_iff_iff]
      simp
      omega
    · rw [Bool.eq_iff_iff]
      simp
      omega
  · rw [if_neg h, if_pos (by omega)]

theorem life_start : Life.start = rowOfThree := by
  funext i j
  rw [Life.start, rowOfThree, Bool.eq_iff_iff]
  simp
  omega

/-- `main` of `/repo/examples/game_of_life.cpp`: for every size of the board and number of rounds, whatever the order of the
iterations of the kernels and of the assignments of the copies, nothing is read or written outside of the chunks, no
assertion fails, and the boards printed are the generations of the three cells. -/
theorem C78_generations {L H nt : Nat} (hL : 2 ≤ L) (hH : 2 ≤ H) (hL2 : L < 2 ^ 32) (hH2 : H < 2 ^ 32) (hnt : nt < 2 ^ 32)
    (junk : Nat → Bool) {initIn initOut : List (List I64)}
    (hi : initIn.Perm (Support.policy [BitVec.ofNat 64 L, BitVec.ofNat 64 H]))
    (hi' : initOut.Perm (Support.policy [BitVec.ofNat 64 L, BitVec.ofNat 64 H])) {orders : Nat → Life.Orders}
    (ho : ∀ k, Life.OrdersOk L H (orders k)) :
    ∃ l h, Life.main (BitVec.ofNat 32 nt) (BitVec.ofNat 32 L) (BitVec.ofNat 32 H) junk initIn initOut orders = .ok (l, h) ∧
      l.length = nt + 1 ∧ ∀ k, (hk : k < l.length) → ∀ i j, i < L → j < H →
        View.get l[k] h [[(Dim.x, BitVec.ofNat 64 i)], [(Dim.y, BitVec.ofNat 64 j)]] =
          .ok ((generation L H)^[k] rowOfThree i j) := by
  obtain ⟨l, h, m1, m2, m3⟩ := Life.main_ok hL hH hL2 hH2 hnt junk hi hi' ho
  refine ⟨l, h, m1, m2, fun k hk i j hi hj => ?_⟩
  have := m3 k hk i j hi hj
  rwa [show Life.next L H = generation L H from funext (life_next L H), life_start] at this

/-- The loop from any board: the state of the two device chunks is the same `u` before, the generations are those of `u`. -/
theorem C78_any_board {L H N : Nat} {pos : Nat → Nat → Nat} {s : Span (Dom Dim)} (B : Life.Board L H N pos s) (hL : 2 ≤ L)
    (hH : 2 ≤ H) (hLH : L * H < 2 ^ 64) {v w h : View (Dom Dim)} (hv : Life.OnBoard v s) (hw : Life.OnBoard w s)
    (hh : Life.OnBoard h s) (h1 : v.buf ≠ w.buf) (h2 : v.buf ≠ h.buf) (h3 : w.buf ≠ h.buf) {orders : Nat → Life.Orders}
    (ho : ∀ k, Life.OrdersOk L H (orders k)) (n : Nat) {mem : Mem Bool} {u : Nat → Nat → Bool} (a1 : Grid2.Alloc mem v.buf N)
    (a2 : Grid2.Alloc mem w.buf N) (a3 : Grid2.Alloc mem h.buf N)
    (u1 : ∀ i j, i < L → j < H → View.get mem v [[(Dim.x, BitVec.ofNat 64 i)], [(Dim.y, BitVec.ofNat 64 j)]] = .ok (u i j))
    (u2 : ∀ i j, i < L → j < H → View.get mem w [[(Dim.x, BitVec.ofNat 64 i)], [(Dim.y, BitVec.ofNat 64 j)]] = .ok (u i j)) :
    ∃ m' l, Life.loop (Grid2.seg2 Dim.x Dim.y 1 (L - 1) 1 (H - 1)) v w h orders n 0 mem = .ok (m', l) ∧ l.length = n ∧
      (∀ i j, i < L → j < H → View.get m' v [[(Dim.x, BitVec.ofNat 64 i)], [(Dim.y, BitVec.ofNat 64 j)]] =
        .ok ((generation L H)^[n] u i j)) ∧
      ∀ k, (hk : k < l.length) → ∀ i j, i < L → j < H →
        View.get l[k] h [[(Dim.x, BitVec.ofNat 64 i)], [(Dim.y, BitVec.ofNat 64 j)]] = .ok ((generation L H)^[k] u i j) := by
  have hold : ∀ x : View (Dom Dim), Life.OnBoard x s →
      (∀ i j, i < L → j < H → View.get mem x [[(Dim.x, BitVec.ofNat 64 i)], [(Dim.y, BitVec.ofNat 64 j)]] = .ok (u i j)) →
      Life.Holds L H pos mem x.buf u := by
    intro x hx hu i j hi hj
    have := hu i j hi hj
    have ha := B.chart.access Heat.xy (Nat.zero_le i) hi (Nat.zero_le j) hj
    rw [← hx.span] at ha
    rw [View.get] at this
    have e : x.span.access Dom.spanOps [[(Dim.x, BitVec.ofNat 64 i)], [(Dim.y, BitVec.ofNat 64 j)]] = .ok (pos i j) := ha
    rw [e, Res.ok_bind, Mem.read_eq] at this
    cases hc : cell mem x.buf (pos i j) with
    | none => rw [hc] at this; cases this
    | some y => rw [hc] at this; exact this
  obtain ⟨m', l, k1, _, _, k4, k5, k6⟩ := Life.loop_ok B hL hH hLH hv hw hh h1 h2 h3 ho n 0 a1 a2 a3 (hold v hv u1) (hold w hw u2)
  rw [show Life.next L H = generation L H from funext (life_next L H)] at k4 k6
  exact ⟨m', l, k1, k5, fun i j hi hj => Life.get2 B hv.span k4 hi hj, fun k hk i j hi hj => Life.get2 B hh.span (k6 k hk) hi hj⟩

private theorem three_next {L H : Nat} (hL : 5 ≤ L) (hH : 5 ≤ H) :
    generation L H rowOfThree = columnOfThree ∧ generation L H columnOfThree = rowOfThree := by
  have far : ∀ i j, (5 ≤ i ∨ 5 ≤ j) → liveNeighbours rowOfThree i j = 0 ∧ rowOfThree i j = false ∧
      liveNeighbours columnOfThree i j = 0 ∧ columnOfThree i j = false := by
    intro i j h
    have z : ∀ a b, (4 ≤ a ∨ 4 ≤ b) → rowOfThree a b = false ∧ columnOfThree a b = false := by
      intro a b h
      constructor
      · rw [rowOfThree, Bool.eq_false_iff]; simp; omega
      · rw [columnOfThree, Bool.eq_false_iff]; simp; omega
    have hn : ∀ q ∈ neighbours i j, 4 ≤ q.1 ∨ 4 ≤ q.2 := by
      intro q hq
      simp only [neighbours, List.mem_cons, List.not_mem_nil, or_false] at hq
      rcases hq with rfl | rfl | rfl | rfl | rfl | rfl | rfl | rfl <;> simp only <;> omega
    refine ⟨?_, (z i j (by omega)).1, ?_, (z i j (by omega)).2⟩
    · rw [liveNeighbours, List.countP_eq_zero]
      intro q hq
      rw [(z _ _ (hn q hq)).1]; simp
    · rw [liveNeighbours, List.countP_eq_zero]
      intro q hq
      rw [(z _ _ (hn q hq)).2]; simp
  constructor
  · funext i j
    rw [generation]
    by_cases h : 5 ≤ i ∨ 5 ≤ j
    · obtain ⟨a, b, c, d⟩ := far i j h
      rw [a, b, d]; simp
    · have hi : i < 5 := by omega
      have hj : j < 5 := by omega
      interval_cases i <;> interval_cases j <;> first
        | (rw [if_pos (by omega)]; decide)
        | (rw [if_neg (by omega)]; decide)
        | (split <;> decide)
  · funext i j
    rw [generation]
    by_cases h : 5 ≤ i ∨ 5 ≤ j
    · obtain ⟨a, b, c, d⟩ := far i j h
      rw [c, b, d]; simp
    · have hi : i < 5 := by omega
      have hj : j < 5 := by omega
      interval_cases i <;> interval_cases j <;> first
        | (rw [if_pos (by omega)]; decide)
        | (rw [if_neg (by omega)]; decide)
        | (split <;> decide)

/-- On boards of five by five cells or more the boards printed alternate between a row and a column of three cells. -/
theorem C78_blinker {L H nt : Nat} (hL : 5 ≤ L) (hH : 5 ≤ H) (hL2 : L < 2 ^ 32) (hH2 : H < 2 ^ 32) (hnt : nt < 2 ^ 32)
    (junk : Nat → Bool) {initIn initOut : List (List I64)}
    (hi : initIn.Perm (Support.policy [BitVec.ofNat 64 L, BitVec.ofNat 64 H]))
    (hi' : initOut.Perm (Support.policy [BitVec.ofNat 64 L, BitVec.ofNat 64 H])) {orders : Nat → Life.Orders}
    (ho : ∀ k, Life.OrdersOk L H (orders k)) :
    ∃ l h, Life.main (BitVec.ofNat 32 nt) (BitVec.ofNat 32 L) (BitVec.ofNat 32 H) junk initIn initOut orders = .ok (l, h) ∧
      l.length = nt + 1 ∧ ∀ k, (hk : k < l.length) → ∀ i j, i < L → j < H →
        View.get l[k] h [[(Dim.x, BitVec.ofNat 64 i)], [(Dim.y, BitVec.ofNat 64 j)]] =
          .ok (if k % 2 = 0 then rowOfThree i j else columnOfThree i j) := by
  obtain ⟨l, h, m1, m2, m3⟩ := C78_generations (by omega) (by omega) hL2 hH2 hnt junk hi hi' ho
  refine ⟨l, h, m1, m2, fun k hk i j hi hj => ?_⟩
  rw [m3 k hk i j hi hj]
  congr 1
  obtain ⟨e1, e2⟩ := three_next hL hH
  have : ∀ k, (generation L H)^[k] rowOfThree = if k % 2 = 0 then rowOfThree else columnOfThree := by
    intro k
    induction k with
    | zero => rfl
    | succ k ih =>
      rw [Function.iterate_succ_apply', ih]
      rcases Nat.mod_two_eq_zero_or_one k with h | h
      · rw [if_pos h, if_neg (by omega), e1]
      · rw [if_neg (by omega), if_pos (by omega), e2]
  rw [this]
  split <;> rfl

private def lifeOrders : Life.Orders := ⟨MDSpan.indices [5, 5], Support.policy [3, 3], (MDSpan.indices [5, 5]).reverse⟩

example : Life.OrdersOk 5 5 lifeOrders := ⟨.refl _, .refl _, List.reverse_perm _⟩

/-- The second board printed. -/
example : (do
    let (l, h) ← Life.main 1 5 5 (fun _ => true) (Support.policy [5, 5]) (Support.policy [5, 5]).reverse (fun _ => lifeOrders)
    let m ← (match l[1]? with | some m => .ok m | none => .ub)
    let a ← View.get m h [[(Dim.x, 2)], [(Dim.y, 1)]]
    let b ← View.get m h [[(Dim.x, 1)], [(Dim.y, 2)]]
    Res.ok (a, b)) = .ok (true, false) := by decide +kernel

end DDC.Props
