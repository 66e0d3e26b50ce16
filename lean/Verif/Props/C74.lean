import Verif.Spec.Backward
import Verif.Lemmas.RoundedSolve
import Verif.Props.C39b

/-!
# C74: the residuals of the linear solvers with rounding
-/

namespace DDC

open Finset LinProb

variable {fl : Rat → Rat} {L : Lapack Rat} {ρ : Nat → (Nat → Nat → Rat) → Rat}

theorem SolvesWithin.congr {t t' : Bool} {n : Nat} {A B : Nat → Nat → Rat} {κ : Rat} {x b : Nat → Rat}
    (h : ∀ i j, i < n → j < n → (if t then A j i else A i j) = if t' then B j i else B i j)
    (hs : SolvesWithin t n A κ x b) : SolvesWithin t' n B κ x b := by
  intro i hi
  have e : ∑ j ∈ range n, (if t' then B j i else B i j) * x j = ∑ j ∈ range n, (if t then A j i else A i j) * x j :=
    sum_congr rfl fun j hj => by rw [h i j hi (mem_range.1 hj)]
  rw [e]
  exact hs i hi

theorem shown_within {p : LinProb Rat} (h : p.Shaped) {t : Bool} {κ : Rat} {x b : Nat → Rat}
    (hs : SolvesWithin t p.size.toNat p.entry κ x b) : SolvesWithin t p.size.toNat p.shown κ x b := by
  refine hs.congr fun i j hi hj => ?_
  cases t <;> simp only [Bool.false_eq_true, if_false, if_true, shown_eq p h hi hj, shown_eq p h hj hi]

/-- A direct solver. -/
theorem directR_ok (hL : L.Backward ρ) {σ : Sched} (hσ : σ.Valid) {t : Bool} {n : Nat}
    {A : Nat → Nat → Rat} (hA : L.regular n A = true ∨ L.posDef n A = true) {off : Nat} (b : Mat Rat) (h : off + n ≤ b.rows) :
    ∃ b', solveCols (L.solve t n A) n off σ b = .ok b' ∧ b'.rows = b.rows ∧ b'.cols = b.cols ∧
      (∀ c, c < b.cols → SolvesWithin t n A (ρ n A) (fun j => b'.val (off + j) c) (fun i => b.val (off + i) c)) ∧
      ∀ r c, r < off ∨ off + n ≤ r → b'.val r c = b.val r c := by
  obtain ⟨b', e, h1, h2, h3, h4⟩ := solveCols_ok (f := L.solve t n A) hσ b h
  refine ⟨b', e, h1, h2, fun c hc i hi => ?_, h4⟩
  have h5 := hL.solve t n A (fun i => b.val (off + i) c) hA i hi
  have e1 : ∑ j ∈ range n, (if t then A j i else A i j) * b'.val (off + j) c =
      ∑ j ∈ range n, (if t then A j i else A i j) * L.solve t n A (fun i => b.val (off + i) c) j :=
    sum_congr rfl fun j hj => by rw [h3 c hc j (mem_range.1 hj)]
  have e2 : ∑ j ∈ range n, |b'.val (off + j) c| = ∑ j ∈ range n, |L.solve t n A (fun i => b.val (off + i) c) j| :=
    sum_congr rfl fun j hj => by rw [h3 c hc j (mem_range.1 hj)]
  dsimp only
  rw [e1, e2]
  exact h5

theorem denseSolveR_ok (hL : L.Backward ρ) {σ : Sched} (hσ : σ.Valid) {t : Bool} {n : Nat}
    {A : Nat → Nat → Rat} (hA : L.regular n A = true) {off : Nat} (b : Mat Rat) (h : off + n ≤ b.rows) :
    ∃ b', denseSolve L σ n A t n off b = .ok b' ∧ b'.rows = b.rows ∧ b'.cols = b.cols ∧
      (∀ c, c < b.cols → SolvesWithin t n A (ρ n A) (fun j => b'.val (off + j) c) (fun i => b.val (off + i) c)) ∧
      ∀ r c, r < off ∨ off + n ≤ r → b'.val r c = b.val r c := by
  rw [denseSolve]
  simp only [decide_true, Res.guardAbort_true, Res.pure_eq, Res.ok_bind]
  split_ifs with h0
  · exact ⟨b, rfl, rfl, rfl, fun c _ i hi => absurd hi (by omega), fun _ _ _ => rfl⟩
  · exact directR_ok hL hσ (Or.inl hA) b h

/-- What the set-up of a block matrix computes. -/
structure Setup2R (fl : Rat → Rat) (L : Lapack Rat) (E : Nat → Nat → Rat) (nq m : Nat) (tr bl br T : Mat Rat)
    (A : Nat → Nat → Rat) (κ : Rat) : Prop where
  rows : T.rows = nq
  cols : T.cols = m
  solves : ∀ c, c < m → SolvesWithin false nq E κ (fun k => T.val k c) (fun i => tr.val i c)
  near : ∀ i j, i < m → j < m → SchurNear nq bl T (br.val i j) (A i j) i j

theorem setup2R_eq (hfl : Spec.RoundsAll fl) {σ : Sched} (hσ : σ.Valid) {nq brn : U64} {S : Solver Rat}
    {E : Nat → Nat → Rat} {κ : Rat}
    (hS : SolvesSystemWithin fl L S nq.toNat 0 E κ) {tr bl br : Mat Rat} (h1 : tr.rows = nq.toNat)
    (h2 : tr.cols = brn.toNat)
    (h3 : bl.rows = brn.toNat) (h4 : bl.cols = nq.toNat) (h5 : br.rows = brn.toNat) (h6 : br.cols = brn.toNat) :
    ∃ T A, Setup2R fl L E nq.toNat brn.toNat tr bl br T A κ ∧
      ((L.regular brn.toNat A = true ∧
          Rounded.setup2 fl L σ nq S tr bl brn br = .ok (Rounded.dense2coo fl T, Rounded.dense2coo fl bl, A)) ∨
        (L.regular brn.toNat A = false ∧ Rounded.setup2 fl L σ nq S tr bl brn br = .throw)) := by
  obtain ⟨T, e1, r1, c1, s1, -⟩ := hS σ hσ false 0 tr (by omega)
  obtain ⟨B, e2, r2, c2, s2⟩ := schurR_ok hfl hσ bl T br h3 h4 (by omega) (by omega) h5 h6
  refine ⟨T, B.val, ⟨by omega, by omega, ?_, s2⟩, ?_⟩
  · intro c hc
    have := s1 c (by omega)
    simpa only [Nat.zero_add] using this
  · have e3 : Rounded.setup2 fl L σ nq S tr bl brn br =
        (denseSetup L brn B >>= fun A => .ok (Rounded.dense2coo fl T, Rounded.dense2coo fl bl, A)) := by
      rw [Rounded.setup2, h1, show nq.toNat = nq.toNat + 0 from rfl, e1, Res.ok_bind]
      simp only [Nat.add_zero]
      rw [e2, Res.ok_bind]
    rw [e3, denseSetup]
    have e4 : lapackDense B = B.val := rfl
    rw [e4]
    by_cases hr : L.regular brn.toNat B.val = true
    · left
      refine ⟨hr, ?_⟩
      rw [if_pos hr]; rfl
    · right
      refine ⟨by simpa using hr, ?_⟩
      rw [if_neg hr]; rfl

theorem colSum_eq (fl : Rat → Rat) (T : Mat Rat) (c : Nat) (hc : c < T.cols) :
    (Rounded.dense2coo fl T).colSum c = norm1 T.rows (fun l => trimR fl T l c) := by
  have h := sum_rowR fl T true c hc (fun e => |e.2.2|)
  simp only [if_true] at h
  rw [Coo.colSum, h, norm1]
  refine sum_congr rfl fun k _ => ?_
  rw [trimR]
  split_ifs <;> simp

/-- The data of the block elimination. -/
theorem blockData (hfl : Spec.RoundsAll fl) {nq m : Nat} {E A : Nat → Nat → Rat} {tr bl br T : Mat Rat} {κ a B : Rat}
    (hT : Setup2R fl L E nq m tr bl br T A κ) (hκ : 0 ≤ κ) (ha0 : 0 ≤ a) (hB0 : 0 ≤ B) (hn : nq + m ≤ 2 ^ 39)
    (ha : ∀ i j, i < nq + m → j < nq + m → |entry2 nq E tr bl br i j| ≤ a)
    (hB : ∀ c, c < m → (Rounded.dense2coo fl T).colSum c ≤ B) :
    BlockData nq m E tr.val bl.val br.val T.val (trimR fl T) (trimR fl bl) A a
      (17 / 16 * ((nq + m : Nat) + 2) / 2 ^ 53) κ (11 / 10 ^ 15) B := by
  have hn' : ((nq + m : Nat) : Rat) ≤ 2 ^ 39 := by exact_mod_cast hn
  have bl_le : ∀ i j, i < m → j < nq → |bl.val i j| ≤ a := fun i j hi hj => by
    have := ha (nq + i) j (by omega) (by omega)
    rwa [entry2_bl hj] at this
  refine ⟨ha0, by positivity, by norm_num at hn' ⊢; linarith, hκ, by positivity, hB0, ?_, bl_le, ?_, ?_, ?_, ?_, ?_, ?_, ?_⟩
  · intro i j hi hj
    have := ha i j (by omega) (by omega)
    rwa [entry2, if_pos ⟨hi, hj⟩] at this
  · intro i j hi hj
    have := ha (nq + i) (nq + j) (by omega) (by omega)
    rwa [entry2_br] at this
  · intro i c hi hc
    have := hT.solves c hc i hi
    simp only [Bool.false_eq_true, if_false] at this
    exact this
  · exact fun l c => trimR_near hfl T l c
  · exact fun l c => trimR_near hfl bl l c
  · exact fun i j hi hj => (trimR_le fl bl i j).trans (bl_le i j hi hj)
  · intro c hc
    have := hB c hc
    rwa [colSum_eq fl T c (by rw [hT.cols]; exact hc), hT.rows] at this
  · intro i c hi hc
    refine (hT.near i c hi hc).trans (mul_le_mul_of_nonneg_right ?_ (by positivity))
    have h1 := up_le (nq + 2) (by omega)
    have h2 : ((nq + 2 : Nat) : Rat) ≤ (nq + m : Nat) + 2 := by push_cast; linarith [Nat.cast_nonneg (α := Rat) m]
    have h3 : 17 / 16 * ((nq + 2 : Nat) : Rat) / 2 ^ 53 ≤ 17 / 16 * ((nq + m : Nat) + 2) / 2 ^ 53 := by gcongr
    linarith

theorem norm1_add (nq m : Nat) (x : Nat → Rat) : ∑ j ∈ range (nq + m), |x j| = norm1 nq x + norm1 m (fun c => x (nq + c)) :=
  sum_range_add _ _ _

theorem bound_le {nq m : Nat} {κ ρS a B W : Rat} (hκ : 0 ≤ κ) (hρ : 0 ≤ ρS) (ha0 : 0 ≤ a) (hB0 : 0 ≤ B) (hW : 0 ≤ W) :
    (4 * (κ + ρS) + 9 / 2 * a * (17 / 16 * ((nq + m : Nat) + 2) / 2 ^ 53) + 2 * (1 + a * nq) * (11 / 10 ^ 15)) *
      (1 + (B + nq * (11 / 10 ^ 15))) * W ≤ blockResidual (nq + m) nq κ ρS a B * W := by
  rw [blockResidual]
  refine mul_le_mul_of_nonneg_right (mul_le_mul_of_nonneg_right ?_ (by positivity)) hW
  have : 0 ≤ a * ((nq + m : Nat) + 2) := by positivity
  norm_num at this ⊢
  linarith

/-- The solver of the 2x2 blocks. -/
theorem solve2R_ok (hfl : Spec.RoundsAll fl) (hL : L.Backward ρ) {σ : Sched} (hσ : σ.Valid) {nq m : Nat} {S : Solver Rat}
    {E : Nat → Nat → Rat} {κ a B : Rat} (hS : SolvesSystemWithin fl L S nq 0 E κ) (hκ : 0 ≤ κ) (ha0 : 0 ≤ a) (hB0 : 0 ≤ B)
    (hn : nq + m ≤ 2 ^ 39) {tr bl br T : Mat Rat} {A : Nat → Nat → Rat}
    (hT : Setup2R fl L E nq m tr bl br T A κ) (hbr : bl.rows = m) (hbc : bl.cols = nq)
    (ha : ∀ i j, i < nq + m → j < nq + m → |entry2 nq E tr bl br i j| ≤ a)
    (hB : ∀ c, c < m → (Rounded.dense2coo fl T).colSum c ≤ B) (hA : L.regular m A = true)
    (t : Bool) (off : Nat) (b : Mat Rat) (h : off + (nq + m) ≤ b.rows) :
    ∃ b', Rounded.solve2 fl L σ (nq + m) nq (Rounded.solve fl L σ S) (Rounded.dense2coo fl T) (Rounded.dense2coo fl bl) m A t
        (nq + m) off b = .ok b' ∧
      b'.rows = b.rows ∧ b'.cols = b.cols ∧
      (∀ c, c < b.cols → SolvesWithin t (nq + m) (entry2 nq E tr bl br) (blockResidual (nq + m) nq κ (ρ m A) a B)
        (fun j => b'.val (off + j) c) (fun i => b.val (off + i) c)) ∧
      ∀ r c, r < off ∨ off + (nq + m) ≤ r → b'.val r c = b.val r c := by
  have D := blockData hfl hT hκ ha0 hB0 hn ha hB
  have hρ := hL.nonneg m A
  have hTr := hT.rows
  have hTc := hT.cols
  rw [Rounded.solve2]
  simp only [decide_true, Nat.add_sub_cancel_left, Res.guardAbort_true, Res.ok_bind]
  rw [if_neg (by omega)]
  have hgg : ∀ k : Nat, k ≤ nq + m → ∀ s : Rat, 0 ≤ s →
      17 / 16 * (k : Rat) / 2 ^ 53 * s ≤ 17 / 16 * ((nq + m : Nat) + 2) / 2 ^ 53 * s := by
    intro k hk s hs
    have : (k : Rat) ≤ (nq + m : Nat) := by exact_mod_cast hk
    gcongr
    linarith
  -- from the two row blocks to all rows
  have glue : ∀ (t : Bool) (x b : Nat → Rat) (M : Rat),
      (∀ i, i < nq → |∑ j ∈ range nq, (if t then E j i else E i j) * x j +
        ∑ c ∈ range m, (if t then bl.val c i else tr.val i c) * x (nq + c) - b i| ≤ M) →
      (∀ i, i < m → |∑ j ∈ range nq, (if t then tr.val j i else bl.val i j) * x j +
        ∑ c ∈ range m, (if t then br.val c i else br.val i c) * x (nq + c) - b (nq + i)| ≤ M) →
      M ≤ blockResidual (nq + m) nq κ (ρ m A) a B * (norm1 nq x + norm1 m (fun c => x (nq + c))) →
      SolvesWithin t (nq + m) (entry2 nq E tr bl br) (blockResidual (nq + m) nq κ (ρ m A) a B) x b := by
    intro t x b M g1 g2 g3 i hi
    rw [norm1_add]
    refine le_trans ?_ g3
    rcases Nat.lt_or_ge i nq with hi' | hi'
    · rw [sum_tl nq m E tr bl br i hi' t]
      exact g1 i hi'
    · obtain ⟨k, rfl⟩ := Nat.exists_eq_add_of_le hi'
      rw [sum_br nq m E tr bl br k t]
      exact g2 k (by omega)
  cases t
  · obtain ⟨b1, e1, r1, c1, s1, o1⟩ := hS σ hσ false off b (by omega)
    obtain ⟨b2, e2, r2, c2, s2, o2⟩ := spdmR_ok (fl := fl) (tr := false) (xoff := off) (xlen := nq) (yoff := off + nq)
      (ylen := m) hσ (op := Rounded.dense2coo fl bl) (by omega) (by simpa [Rounded.dense2coo] using hbr)
      (by simpa [Rounded.dense2coo] using hbc) (dense2cooR_mem fl bl) b1 (by omega) (by omega)
    obtain ⟨b3, e3, r3, c3, s3, o3⟩ := denseSolveR_ok (t := false) (off := off + nq) hL hσ hA b2 (by omega)
    obtain ⟨b4, e4, r4, c4, s4, o4⟩ := spdmR_ok (fl := fl) (tr := false) (xoff := off + nq) (xlen := m) (yoff := off)
      (ylen := nq) hσ (op := Rounded.dense2coo fl T) (by omega) (by simpa [Rounded.dense2coo] using hTr)
      (by simpa [Rounded.dense2coo] using hTc) (dense2cooR_mem fl T) b3 (by omega) (by omega)
    simp only [Nat.add_zero] at e1
    refine ⟨b4, ?_, by omega, by omega, ?_, ?_⟩
    · simp only [Bool.not_false, if_true]
      rw [e1, Res.ok_bind, e2, Res.ok_bind, e3, Res.ok_bind, e4]
    · intro c hc
      have z4 : ∀ k, b4.val (off + nq + k) c = b3.val (off + nq + k) c := fun k => o4 _ c (by omega)
      have y3 : ∀ k, k < nq → b3.val (off + k) c = b1.val (off + k) c := fun k hk => by
        rw [o3 _ c (by omega), o2 _ c (by omega)]
      have key := D.direct hρ (x := fun j => b4.val (off + j) c) (y := fun j => b1.val (off + j) c)
        (z := fun k => b3.val (off + nq + k) c) (w := fun k => b2.val (off + nq + k) c) (b := fun j => b.val (off + j) c)
        (b2 := fun k => b.val (off + nq + k) c) ?_ ?_ ?_ ?_
      · refine glue false _ _ _ ?_ ?_ (bound_le (m := m) hκ hρ ha0 hB0 (add_nonneg (norm1_nonneg nq fun j => b4.val (off + j) c)
          (norm1_nonneg m fun k => b4.val (off + (nq + k)) c)))
        · intro i hi
          simp only [Bool.false_eq_true, if_false, ← Nat.add_assoc, z4]
          exact key.1 i hi
        · intro i hi
          simp only [Bool.false_eq_true, if_false, ← Nat.add_assoc, z4]
          exact key.2 i hi
      · intro i hi
        have := s1 c hc i hi
        simp only [Bool.false_eq_true, if_false] at this
        exact this
      · intro i hi
        rw [s2 c (by omega) i hi, ← o1 (off + nq + i) c (by omega)]
        have := rowFoldR_near hfl bl false i nq (by simpa [hbr] using hi) (by simp [hbc]) (by omega)
          (fun k => b1.val (off + k) c) (b1.val (off + nq + i) c)
        simp only [Bool.false_eq_true, if_false, hbc] at this
        exact this.trans (hgg nq (by omega) _ (by positivity))
      · intro i hi
        have := s3 c (by omega) i hi
        simp only [Bool.false_eq_true, if_false] at this
        exact this
      · intro i hi
        rw [s4 c (by omega) i hi, y3 i hi]
        have := rowFoldR_near hfl T false i m (by simpa [hTr] using hi) (by simp [hTc]) (by omega)
          (fun k => b3.val (off + nq + k) c) (b1.val (off + i) c)
        simp only [Bool.false_eq_true, if_false, hTc] at this
        exact this.trans (hgg m (by omega) _ (by positivity))
    · intro r c hr
      rw [o4 r c (by omega), o3 r c (by omega), o2 r c (by omega), o1 r c (by omega)]
  · obtain ⟨b1, e1, r1, c1, s1, o1⟩ := spdmR_ok (fl := fl) (tr := true) (xoff := off) (xlen := nq) (yoff := off + nq)
      (ylen := m) hσ (op := Rounded.dense2coo fl T) (by omega) (by simpa [Rounded.dense2coo] using hTc)
      (by simpa [Rounded.dense2coo] using hTr) (dense2cooR_mem fl T) b (by omega) (by omega)
    obtain ⟨b2, e2, r2, c2, s2, o2⟩ := denseSolveR_ok (t := true) (off := off + nq) hL hσ hA b1 (by omega)
    obtain ⟨b3, e3, r3, c3, s3, o3⟩ := spdmR_ok (fl := fl) (tr := true) (xoff := off + nq) (xlen := m) (yoff := off)
      (ylen := nq) hσ (op := Rounded.dense2coo fl bl) (by omega) (by simpa [Rounded.dense2coo] using hbc)
      (by simpa [Rounded.dense2coo] using hbr) (dense2cooR_mem fl bl) b2 (by omega) (by omega)
    obtain ⟨b4, e4, r4, c4, s4, o4⟩ := hS σ hσ true off b3 (by omega)
    simp only [Nat.add_zero] at e4
    refine ⟨b4, ?_, by omega, by omega, ?_, ?_⟩
    · simp only [Bool.not_true, Bool.false_eq_true, if_false]
      rw [e1, Res.ok_bind, e2, Res.ok_bind, e3, Res.ok_bind, e4]
    · intro c hc
      have z4 : ∀ k, b4.val (off + nq + k) c = b2.val (off + nq + k) c := fun k => by
        rw [o4 _ c (by omega), o3 _ c (by omega)]
      have y2 : ∀ k, k < nq → b2.val (off + k) c = b.val (off + k) c := fun k hk => by
        rw [o2 _ c (by omega), o1 _ c (by omega)]
      have key := D.transposed hρ (x := fun j => b4.val (off + j) c) (v := fun j => b3.val (off + j) c)
        (z := fun k => b2.val (off + nq + k) c) (w := fun k => b1.val (off + nq + k) c) (b := fun j => b.val (off + j) c)
        (b2 := fun k => b.val (off + nq + k) c) ?_ ?_ ?_ ?_
      · refine glue true _ _ _ ?_ ?_ (bound_le (m := m) hκ hρ ha0 hB0 (add_nonneg (norm1_nonneg nq fun j => b4.val (off + j) c)
          (norm1_nonneg m fun k => b4.val (off + (nq + k)) c)))
        · intro i hi
          simp only [if_true, ← Nat.add_assoc, z4]
          exact key.1 i hi
        · intro i hi
          simp only [if_true, ← Nat.add_assoc, z4]
          exact key.2 i hi
      · intro i hi
        rw [s1 c (by omega) i hi]
        have := rowFoldR_near hfl T true i nq (by simpa [hTc] using hi) (by simp [hTr]) (by omega)
          (fun k => b.val (off + k) c) (b.val (off + nq + i) c)
        simp only [if_true, hTr] at this
        exact this.trans (hgg nq (by omega) _ (by positivity))
      · intro i hi
        have := s2 c (by omega) i hi
        simp only [if_true] at this
        exact this
      · intro i hi
        rw [s3 c (by omega) i hi, y2 i hi]
        have := rowFoldR_near hfl bl true i m (by simpa [hbc] using hi) (by simp [hbr]) (by omega)
          (fun k => b2.val (off + nq + k) c) (b.val (off + i) c)
        simp only [if_true, hbr] at this
        exact this.trans (hgg m (by omega) _ (by positivity))
      · intro i hi
        have := s4 c (by omega) i hi
        simp only [if_true] at this
        exact this
    · intro r c hr
      rw [o4 r c (by omega), o3 r c (by omega), o2 r c (by omega), o1 r c (by omega)]

theorem setupR_size {σ : Sched} {p : LinProb Rat} {S : Solver Rat} (h : Rounded.setup fl L σ p = .ok S) :
    S.size = p.size.toNat := by
  cases p with
  | dense n a => exact setup_size (L := L) (σ := σ) (p := .dense n a) h
  | band n kl ku q => exact setup_size (L := L) (σ := σ) (p := .band n kl ku q) h
  | pdsBand n ext q => exact setup_size (L := L) (σ := σ) (p := .pdsBand n ext q) h
  | pdsTridiag n q => exact setup_size (L := L) (σ := σ) (p := .pdsTridiag n q) h
  | blocks2 n tl tr bl brn br =>
    obtain ⟨S1, -, h⟩ := Res.bind_eq_ok.1 h
    obtain ⟨⟨t, b, A⟩, -, h⟩ := Res.bind_eq_ok.1 h
    obtain rfl := Res.ok.inj h; rfl
  | blocks3 n top tl tr bl brn br =>
    obtain ⟨S1, -, h⟩ := Res.bind_eq_ok.1 h
    obtain ⟨⟨t, b, A⟩, -, h⟩ := Res.bind_eq_ok.1 h
    obtain rfl := Res.ok.inj h; rfl

theorem residual_nonneg (hL : L.Backward ρ) {a B : Rat} (ha0 : 0 ≤ a) (hB0 : 0 ≤ B) (S : Solver Rat) :
    0 ≤ S.residual ρ a B := by
  induction S with
  | getrs n A => exact hL.nonneg n A
  | gbtrs n A => exact hL.nonneg n A
  | pbtrs n A => exact hL.nonneg n A
  | pttrs n A => exact hL.nonneg n A
  | blocks2 n tl tr bl brn br ih =>
    have := hL.nonneg brn br
    rw [Solver.residual, blockResidual]
    positivity
  | blocks3 n top tl tr bl brn br ih =>
    have := hL.nonneg brn br
    rw [Solver.residual, blockResidual]
    positivity

/-- The invariant of the set-up. -/
theorem setupR_correct (hfl : Spec.RoundsAll fl) (hL : L.Backward ρ) {σ : Sched} (hσ : σ.Valid) {a B : Rat} (ha0 : 0 ≤ a)
    (hB0 : 0 ≤ B) (p : LinProb Rat) (h : p.Shaped) (hn : p.size.toNat ≤ 2 ^ 39) (hi : Inhabited' p)
    (ha : ∀ i j, i < p.size.toNat → j < p.size.toNat → |p.entry i j| ≤ a)
    (S : Solver Rat) (hS : Rounded.setup fl L σ p = .ok S) (hB : S.ColsBound B) :
    SolvesSystemWithin fl L S p.size.toNat p.extra p.entry (S.residual ρ a B) := by
  induction p generalizing S with
  | dense n a =>
    obtain ⟨A, e, hS⟩ := Res.bind_eq_ok.1 hS
    obtain rfl := Res.ok.inj hS
    rw [denseSetup] at e
    split_ifs at e with hr
    obtain rfl := Res.ok.inj e
    intro σ hσ t off b hb
    exact denseSolveR_ok hL hσ hr b hb
  | band n kl ku q =>
    simp only [Rounded.setup, LinProb.setup] at hS
    split_ifs at hS with hr
    obtain rfl := Res.ok.inj hS
    intro σ hσ t off b hb
    simp only [Rounded.solve, Solver.solve, extra, Nat.add_zero, size, decide_true, Res.guardAbort_true, Res.ok_bind]
    exact directR_ok hL hσ (Or.inl hr) b hb
  | pdsBand n ext q =>
    simp only [Rounded.setup, LinProb.setup] at hS
    split_ifs at hS with hr
    obtain rfl := Res.ok.inj hS
    intro σ hσ t off b hb
    simp only [Rounded.solve, Solver.solve, extra, Nat.add_zero, size, decide_true, Res.guardAbort_true, Res.ok_bind]
    obtain ⟨b', e, r, c, s, o⟩ := directR_ok (t := false) hL hσ (Or.inr hr) b hb
    refine ⟨b', e, r, c, fun c hc => SolvesWithin.congr (fun i j _ _ => ?_) (s c hc), o⟩
    have e1 : (ext - 1).toNat = ext.toNat - 1 := by
      rw [toNat_sub_le (by have := h.2.1; rw [toNat_one]; omega), toNat_one]
    cases t
    · simp only [Bool.false_eq_true, if_false, entry, e1]
    · simp only [Bool.false_eq_true, if_false, if_true, entry, e1]
      exact lapackSymBand_symm _ _ _ _
  | pdsTridiag n q =>
    simp only [Rounded.setup, LinProb.setup] at hS
    split_ifs at hS with hr
    obtain rfl := Res.ok.inj hS
    intro σ hσ t off b hb
    simp only [Rounded.solve, Solver.solve, extra, Nat.add_zero, size, decide_true, Res.guardAbort_true, Res.ok_bind]
    rw [if_neg (by simp only [Inhabited'] at hi; omega)]
    obtain ⟨b', e, r, c, s, o⟩ := directR_ok (t := false) hL hσ (Or.inr hr) b hb
    refine ⟨b', e, r, c, fun c hc => SolvesWithin.congr (fun i j _ _ => ?_) (s c hc), o⟩
    cases t
    · simp only [Bool.false_eq_true, if_false, entry]
    · simp only [Bool.false_eq_true, if_false, if_true, entry]
      exact lapackTridiag_symm _ _ _ _
  | blocks2 n tl tr bl brn br ih =>
    obtain ⟨hn', ht, hs, h1, h2, h3, h4, h5, h6⟩ := h
    obtain ⟨S1, e1, hS⟩ := Res.bind_eq_ok.1 hS
    obtain ⟨⟨t, b, A⟩, e2, hS⟩ := Res.bind_eq_ok.1 hS
    obtain rfl := Res.ok.inj hS
    have htl := tl_okR h1 e1 e2
    have hn : tl.size.toNat + brn.toNat ≤ 2 ^ 39 := hs ▸ hn
    have ha : ∀ i j, i < tl.size.toNat + brn.toNat → j < tl.size.toNat + brn.toNat →
        |entry2 tl.size.toNat tl.entry tr bl br i j| ≤ a := by rw [hs]; exact ha
    have hS1 := ih ht (by omega) htl.1 (fun i j hi hj => by
      have := ha i j (by omega) (by omega)
      rwa [entry2, if_pos ⟨hi, hj⟩] at this) S1 e1 hB.1
    rw [htl.2] at hS1
    obtain ⟨T, A', hT, ⟨hA, e3⟩ | ⟨-, e3⟩⟩ := setup2R_eq hfl hσ hS1 h1 h2 h3 h4 h5 h6
    · rw [e2] at e3
      obtain ⟨rfl, e4⟩ := Prod.mk.inj (Res.ok.inj e3)
      obtain ⟨rfl, rfl⟩ := Prod.mk.inj e4
      intro σ' hσ' t off b hb
      simp only [size, extra, Nat.add_zero, ← hs] at hb ⊢
      simp only [Rounded.solve, setupR_size e1, Solver.residual]
      exact solve2R_ok hfl hL hσ' hS1 (residual_nonneg hL ha0 hB0 S1) ha0 hB0 hn hT h3 h4 ha hB.2 hA t off b hb
    · rw [e2] at e3; cases e3
  | blocks3 n top tl tr bl brn br ih =>
    obtain ⟨hn', ht, hs, h1, h2, h3, h4, h5, h6, h7⟩ := h
    obtain ⟨S1, e1, hS⟩ := Res.bind_eq_ok.1 hS
    obtain ⟨⟨t, b, A⟩, e2, hS⟩ := Res.bind_eq_ok.1 hS
    obtain rfl := Res.ok.inj hS
    have htl := tl_okR h1 e1 e2
    have hn : n.toNat ≤ 2 ^ 39 := hn
    have ha : ∀ i j, i < n.toNat → j < n.toNat → |entry2 tl.size.toNat tl.entry tr bl br
        (pos3 top.toNat tl.size.toNat i) (pos3 top.toNat tl.size.toNat j)| ≤ a := ha
    have ha' : ∀ i j, i < tl.size.toNat + brn.toNat → j < tl.size.toNat + brn.toNat →
        |entry2 tl.size.toNat tl.entry tr bl br i j| ≤ a := by
      obtain ⟨g, hg, hgl⟩ : ∃ g : Nat → Nat, (∀ i, pos3 top.toNat tl.size.toNat (g i) = i) ∧
          ∀ i, i < n.toNat → g i < n.toNat := by
        refine ⟨fun j => if j < tl.size.toNat then j + top.toNat else
          if j < tl.size.toNat + top.toNat then j - tl.size.toNat else j, ?_, ?_⟩
        · intro i; simp only [pos3]; split_ifs <;> omega
        · intro i hi; simp only; split_ifs <;> omega
      intro i j hi hj
      have := ha (g i) (g j) (hgl i (by omega)) (hgl j (by omega))
      rwa [hg, hg] at this
    have hS1 := ih ht (by omega) htl.1 (fun i j hi hj => by
      have := ha' i j (by omega) (by omega)
      rwa [entry2, if_pos ⟨hi, hj⟩] at this) S1 e1 hB.1
    rw [htl.2] at hS1
    obtain ⟨T, A', hT, ⟨hA, e3⟩ | ⟨-, e3⟩⟩ := setup2R_eq hfl hσ hS1 h1 h2 h3 h4 h5 h6
    · rw [e2] at e3
      obtain ⟨rfl, e4⟩ := Prod.mk.inj (Res.ok.inj e3)
      obtain ⟨rfl, rfl⟩ := Prod.mk.inj e4
      intro σ' hσ' t off b hb
      simp only [size, extra] at hb ⊢
      obtain ⟨b1, f1, r1, c1, s1, o1⟩ := interchange3to2_ok (top := top.toNat) (nq := tl.size.toNat) (n := n.toNat)
        (off := off) (by omega) b hb
      obtain ⟨b2, f2, r2, c2, s2, o2⟩ := solve2R_ok hfl hL hσ' hS1 (residual_nonneg hL ha0 hB0 S1) ha0 hB0 (by omega) hT
        h3 h4 ha' hB.2 hA t (off + top.toNat) b1 (by omega)
      obtain ⟨b3, f3, r3, c3, s3, o3⟩ := interchange2to3_ok (top := top.toNat) (nq := tl.size.toNat) (n := n.toNat)
        (off := off) (by omega) b2 (by omega)
      refine ⟨b3, ?_, by omega, by omega, ?_, ?_⟩
      · simp only [Rounded.solve, setupR_size e1, decide_true, Res.guardAbort_true, Res.ok_bind]
        rw [f1, Res.ok_bind, ← hs, f2, Res.ok_bind, hs, f3]
      · intro c hc i hi
        have hp : pos3 top.toNat tl.size.toNat i < tl.size.toNat + brn.toNat := by
          rw [pos3]; split_ifs <;> omega
        have h8 := s2 c (by omega) _ hp
        simp only at h8
        rw [s1 c i hi] at h8
        have e5 : ∑ j ∈ range n.toNat, (if t = true then (blocks3 n top tl tr bl brn br).entry j i
              else (blocks3 n top tl tr bl brn br).entry i j) * b3.val (off + j) c =
            ∑ j ∈ range n.toNat, (if t = true then entry2 tl.size.toNat tl.entry tr bl br j (pos3 top.toNat tl.size.toNat i)
              else entry2 tl.size.toNat tl.entry tr bl br (pos3 top.toNat tl.size.toNat i) j) *
              b2.val (off + top.toNat + j) c := by
          refine Eq.trans ?_ (sum_pos3 (top := top.toNat) (nq := tl.size.toNat) (n := n.toNat) (by omega) _)
          refine sum_congr rfl fun j hj => ?_
          rw [s3 c j (mem_range.1 hj)]
          simp only [entry]
        have e6 : ∑ j ∈ range n.toNat, |b3.val (off + j) c| = ∑ j ∈ range n.toNat, |b2.val (off + top.toNat + j) c| := by
          refine Eq.trans ?_ (sum_pos3 (top := top.toNat) (nq := tl.size.toNat) (n := n.toNat) (by omega) _)
          refine sum_congr rfl fun j hj => ?_
          rw [s3 c j (mem_range.1 hj)]
        dsimp only
        rw [e5, e6, Solver.residual, setupR_size e1, ← hs]
        exact h8
      · intro r c hr
        rw [o3 r c hr, o2 r c (by omega), o1 r c hr]
    · rw [e2] at e3; cases e3
where
  /-- The top-left block has been solved: it needs no more rows, and it is not an empty tridiagonal one. -/
  tl_okR {tl : LinProb Rat} {S1 : Solver Rat} {tr bl br : Mat Rat} {brn : U64} {x : Coo Rat × Coo Rat × (Nat → Nat → Rat)}
      (h1 : tr.rows = tl.size.toNat) (e1 : Rounded.setup fl L σ tl = .ok S1)
      (e2 : Rounded.setup2 fl L σ tl.size S1 tr bl brn br = .ok x) :
      Inhabited' tl ∧ tl.extra = 0 := by
    obtain ⟨T, e, -⟩ := Res.bind_eq_ok.1 e2
    cases tl with
    | dense n a => exact ⟨trivial, rfl⟩
    | band n kl ku q => exact ⟨trivial, rfl⟩
    | pdsBand n ext q => exact ⟨trivial, rfl⟩
    | pdsTridiag n q =>
      refine ⟨?_, rfl⟩
      simp only [Rounded.setup, LinProb.setup] at e1
      split_ifs at e1
      obtain rfl := Res.ok.inj e1
      simp only [Rounded.solve, Solver.solve] at e
      obtain ⟨-, -, e⟩ := Res.bind_eq_ok.1 e
      split_ifs at e with h0
      simp only [Inhabited']
      omega
    | blocks2 n tl tr bl brn br => exact ⟨trivial, rfl⟩
    | blocks3 n top tl' tr' bl brn br =>
      refine ⟨trivial, ?_⟩
      obtain ⟨S2, -, e1⟩ := Res.bind_eq_ok.1 e1
      obtain ⟨⟨t, b, A⟩, -, e1⟩ := Res.bind_eq_ok.1 e1
      obtain rfl := Res.ok.inj e1
      simp only [Rounded.solve] at e
      obtain ⟨_, e, -⟩ := Res.bind_eq_ok.1 e
      simp only [extra]
      simp only [size] at h1
      by_contra h0
      rw [decide_eq_false (by omega)] at e
      cases e

/-- Every system is solved, in place, with small residuals, and nothing else is written: for every matrix (dense, band,
symmetric, blocks), every number of right-hand sides, direct or transposed, every order of the parallel iterations. -/
theorem C74_residual (hfl : Spec.RoundsAll fl) (hL : L.Backward ρ) {σ : Sched} (hσ : σ.Valid) {a B : Rat} (ha0 : 0 ≤ a)
    (hB0 : 0 ≤ B) (p : LinProb Rat) (h : p.Shaped) (h0 : 0 < p.size.toNat) (hn : p.size.toNat ≤ 2 ^ 39)
    (ha : ∀ i j, i < p.size.toNat → j < p.size.toNat → |p.shown i j| ≤ a)
    (S : Solver Rat) (hS : Rounded.setup fl L σ p = .ok S) (hB : S.ColsBound B) :
    SolvesSystemWithin fl L S p.size.toNat p.extra p.shown (S.residual ρ a B) := by
  have hi : Inhabited' p := by cases p <;> first | trivial | exact h0
  intro σ' hσ' t off b hb
  obtain ⟨b', e, r, c, s, o⟩ := setupR_correct hfl hL hσ ha0 hB0 p h hn hi
    (fun i j hi hj => by rw [← shown_eq p h hi hj]; exact ha i j hi hj) S hS hB σ' hσ' t off b hb
  exact ⟨b', e, r, c, fun c hc => shown_within h (s c hc), o⟩

/-- A bound for the columns always exists. -/
theorem C74_bound_exists (S : Solver Rat) : ∃ B, 0 ≤ B ∧ S.ColsBound B := by
  have mono : ∀ (S : Solver Rat) {B B' : Rat}, B ≤ B' → S.ColsBound B → S.ColsBound B' := by
    intro S
    induction S with
    | blocks2 n tl tr bl brn br ih => exact fun h hb => ⟨ih h hb.1, fun c hc => (hb.2 c hc).trans h⟩
    | blocks3 n top tl tr bl brn br ih => exact fun h hb => ⟨ih h hb.1, fun c hc => (hb.2 c hc).trans h⟩
    | _ => intros; trivial
  have key : ∀ (tr : Coo Rat) (m : Nat), ∃ B, 0 ≤ B ∧ ∀ c, c < m → tr.colSum c ≤ B := by
    intro tr m
    have h0 : ∀ c, 0 ≤ tr.colSum c := fun c => by
      refine List.sum_nonneg fun x hx => ?_
      obtain ⟨e, -, rfl⟩ := List.mem_map.1 hx
      split_ifs <;> positivity
    exact ⟨∑ c ∈ range m, tr.colSum c, sum_nonneg fun c _ => h0 c, fun c hc =>
      single_le_sum (fun c _ => h0 c) (mem_range.2 hc)⟩
  induction S with
  | blocks2 n tl tr bl brn br ih =>
    obtain ⟨B, b0, hb⟩ := ih
    obtain ⟨B', b0', hb'⟩ := key tr brn
    exact ⟨B + B', by positivity, mono _ (by linarith) hb, fun c hc => (hb' c hc).trans (by linarith)⟩
  | blocks3 n top tl tr bl brn br ih =>
    obtain ⟨B, b0, hb⟩ := ih
    obtain ⟨B', b0', hb'⟩ := key tr brn
    exact ⟨B + B', by positivity, mono _ (by linarith) hb, fun c hc => (hb' c hc).trans (by linarith)⟩
  | _ => exact ⟨0, le_rfl, trivial⟩

/-- The set-up of a matrix whose main block is not itself a block matrix, and is not empty, gives a solver or throws. -/
theorem C74_setup (hfl : Spec.RoundsAll fl) (hL : L.Backward ρ) {σ : Sched} (hσ : σ.Valid) (p : LinProb Rat) (h : p.Shaped)
    (hn : p.size.toNat ≤ 2 ^ 39)
    (hp : match p with
      | .blocks2 _ tl _ _ _ _ => tl.Direct ∧ 0 < tl.size.toNat
      | .blocks3 _ _ tl _ _ _ _ => tl.Direct ∧ 0 < tl.size.toNat
      | _ => True) :
    (∃ S, Rounded.setup fl L σ p = .ok S) ∨ Rounded.setup fl L σ p = .throw := by
  have direct : ∀ p : LinProb Rat, p.Direct → (∃ S, Rounded.setup fl L σ p = .ok S) ∨ Rounded.setup fl L σ p = .throw := by
    intro p hd
    cases p with
    | dense n a =>
      rw [Rounded.setup, LinProb.setup, denseSetup]
      split_ifs
      · exact Or.inl ⟨_, rfl⟩
      · exact Or.inr rfl
    | band n kl ku q =>
      rw [Rounded.setup, LinProb.setup]
      split_ifs
      · exact Or.inl ⟨_, rfl⟩
      · exact Or.inr rfl
    | pdsBand n ext q =>
      rw [Rounded.setup, LinProb.setup]
      split_ifs
      · exact Or.inl ⟨_, rfl⟩
      · exact Or.inr rfl
    | pdsTridiag n q =>
      rw [Rounded.setup, LinProb.setup]
      split_ifs
      · exact Or.inl ⟨_, rfl⟩
      · exact Or.inr rfl
    | blocks2 n tl tr bl brn br => exact hd.elim
    | blocks3 n top tl tr bl brn br => exact hd.elim
  have block : ∀ (tl : LinProb Rat) (tr bl br : Mat Rat) (brn : U64), tl.Shaped → tl.Direct → 0 < tl.size.toNat →
      tl.size.toNat ≤ 2 ^ 39 → tr.rows = tl.size.toNat → tr.cols = brn.toNat → bl.rows = brn.toNat →
      bl.cols = tl.size.toNat → br.rows = brn.toNat → br.cols = brn.toNat → ∀ S1, Rounded.setup fl L σ tl = .ok S1 →
      (∃ x, Rounded.setup2 fl L σ tl.size S1 tr bl brn br = .ok x) ∨
        Rounded.setup2 fl L σ tl.size S1 tr bl brn br = .throw := by
    intro tl tr bl br brn ht hd h0 hn h1 h2 h3 h4 h5 h6 S1 e1
    obtain ⟨B, hB0, hB⟩ := C74_bound_exists S1
    have hS1 := setupR_correct hfl hL hσ
      (a := ∑ i ∈ range tl.size.toNat, ∑ j ∈ range tl.size.toNat, |tl.entry i j|)
      (sum_nonneg fun _ _ => sum_nonneg fun _ _ => abs_nonneg _) hB0 tl ht hn
      (by cases tl <;> first | trivial | exact h0) (fun i j hi hj => by
        refine le_trans ?_ (single_le_sum (f := fun i => ∑ j ∈ range tl.size.toNat, |tl.entry i j|)
          (fun _ _ => sum_nonneg fun _ _ => abs_nonneg _) (mem_range.2 hi))
        exact single_le_sum (f := fun j => |tl.entry i j|) (fun _ _ => abs_nonneg _) (mem_range.2 hj)) S1 e1 hB
    have he : tl.extra = 0 := by cases tl <;> first | rfl | exact hd.elim
    rw [he] at hS1
    obtain ⟨T, A, -, ⟨-, e⟩ | ⟨-, e⟩⟩ := setup2R_eq hfl hσ hS1 h1 h2 h3 h4 h5 h6
    · exact Or.inl ⟨_, e⟩
    · exact Or.inr e
  cases p with
  | dense n a => exact direct _ trivial
  | band n kl ku q => exact direct _ trivial
  | pdsBand n ext q => exact direct _ trivial
  | pdsTridiag n q => exact direct _ trivial
  | blocks2 n tl tr bl brn br =>
    obtain ⟨hn', ht, hs, h1, h2, h3, h4, h5, h6⟩ := h
    have hn : n.toNat ≤ 2 ^ 39 := hn
    rw [Rounded.setup]
    obtain ⟨S1, e1⟩ | e1 := direct tl hp.1
    · rw [e1, Res.ok_bind]
      obtain ⟨x, e2⟩ | e2 := block tl tr bl br brn ht hp.1 hp.2 (by omega) h1 h2 h3 h4 h5 h6 S1 e1
      · rw [e2]; exact Or.inl ⟨_, rfl⟩
      · rw [e2]; exact Or.inr rfl
    · rw [e1]; exact Or.inr rfl
  | blocks3 n top tl tr bl brn br =>
    obtain ⟨hn', ht, hs, h1, h2, h3, h4, h5, h6, h7⟩ := h
    have hn : n.toNat ≤ 2 ^ 39 := hn
    rw [Rounded.setup]
    obtain ⟨S1, e1⟩ | e1 := direct tl hp.1
    · rw [e1, Res.ok_bind]
      obtain ⟨x, e2⟩ | e2 := block tl tr bl br brn ht hp.1 hp.2 (by omega) h1 h2 h3 h4 h5 h6 S1 e1
      · rw [e2]; exact Or.inl ⟨_, rfl⟩
      · rw [e2]; exact Or.inr rfl
    · rw [e1]; exact Or.inr rfl

/-- A wrong number of rows stops the program. -/
theorem C74_wrong_rows {σ σ' : Sched} (p : LinProb Rat) (S : Solver Rat) (hS : Rounded.setup fl L σ p = .ok S) (t : Bool)
    (len off : Nat) (b : Mat Rat) (hl : len ≠ p.size.toNat + p.extra) : Rounded.solve fl L σ' S t len off b = .abort := by
  cases p with
  | dense n a =>
    obtain ⟨A, -, e⟩ := Res.bind_eq_ok.1 (show (LinProb.dense n a).setup L σ = .ok S from hS)
    obtain rfl := Res.ok.inj e
    exact C39_wrong_rows (.dense n a) _ hS t len off b hl
  | band n kl ku q =>
    have h' := hS
    simp only [Rounded.setup, LinProb.setup] at h'
    split_ifs at h'
    obtain rfl := Res.ok.inj h'
    exact C39_wrong_rows (.band n kl ku q) _ hS t len off b hl
  | pdsBand n ext q =>
    have h' := hS
    simp only [Rounded.setup, LinProb.setup] at h'
    split_ifs at h'
    obtain rfl := Res.ok.inj h'
    exact C39_wrong_rows (.pdsBand n ext q) _ hS t len off b hl
  | pdsTridiag n q =>
    have h' := hS
    simp only [Rounded.setup, LinProb.setup] at h'
    split_ifs at h'
    obtain rfl := Res.ok.inj h'
    exact C39_wrong_rows (.pdsTridiag n q) _ hS t len off b hl
  | blocks2 n tl tr bl brn br =>
    obtain ⟨S1, -, h⟩ := Res.bind_eq_ok.1 hS
    obtain ⟨⟨t, b, A⟩, -, h⟩ := Res.bind_eq_ok.1 h
    obtain rfl := Res.ok.inj h
    rw [Rounded.solve, Rounded.solve2, decide_eq_false (by simpa only [size, extra, Nat.add_zero] using hl)]; rfl
  | blocks3 n top tl tr bl brn br =>
    obtain ⟨S1, -, h⟩ := Res.bind_eq_ok.1 hS
    obtain ⟨⟨t, b, A⟩, -, h⟩ := Res.bind_eq_ok.1 h
    obtain rfl := Res.ok.inj h
    rw [Rounded.solve, decide_eq_false (by simpa only [size, extra, Nat.add_zero] using hl)]; rfl

/-- Without rounding this is the model of C39. -/
theorem C74_exact {σ : Sched} : (∀ p : LinProb Rat, Rounded.setup id L σ p = p.setup L σ) ∧
    ∀ S : Solver Rat, Rounded.solve id L σ S = S.solve L σ := by
  have hs : ∀ S : Solver Rat, Rounded.solve id L σ S = S.solve L σ := by
    intro S
    induction S with
    | blocks2 n tl tr bl brn br ih =>
      funext t len off b
      rw [Rounded.solve, Solver.solve, ih]; rfl
    | blocks3 n top tl tr bl brn br ih =>
      funext t len off b
      rw [Rounded.solve, Solver.solve, ih]; rfl
    | _ => rfl
  refine ⟨fun p => ?_, hs⟩
  induction p with
  | blocks2 n tl tr bl brn br ih =>
    rw [Rounded.setup, LinProb.setup, ih]
    have e : Rounded.setup2 id L σ tl.size = setup2 L σ tl.size := by
      funext S tr bl brn br
      rw [Rounded.setup2, setup2, hs]; rfl
    rw [e]
  | blocks3 n top tl tr bl brn br ih =>
    rw [Rounded.setup, LinProb.setup, ih]
    have e : Rounded.setup2 id L σ tl.size = setup2 L σ tl.size := by
      funext S tr bl brn br
      rw [Rounded.setup2, setup2, hs]; rfl
    rw [e]
  | _ => rfl

/-! ## A case -/

/-- A solver for matrices of size one, in IEEE arithmetic. -/
def oneLapack : Lapack Rat where
  regular n A := decide (n = 1 ∧ A 0 0 ≠ 0)
  posDef _ _ := false
  solve _ _ A b _ := Spec.round53 (b 0 / A 0 0)

theorem oneLapack_backward : oneLapack.Backward fun _ A => |A 0 0| / 2 ^ 52 where
  nonneg _ _ := by positivity
  solve t n A b h := by
    obtain ⟨rfl, h0⟩ : n = 1 ∧ A 0 0 ≠ 0 := by
      rcases h with h | h
      · exact of_decide_eq_true h
      · cases h
    intro i hi
    obtain rfl : i = 0 := by omega
    simp only [oneLapack, sum_range_one, ite_self]
    have h1 := fl_back Spec.round53_all (b 0 / A 0 0)
    obtain ⟨x, hx⟩ : ∃ x, x = Spec.round53 (b 0 / A 0 0) := ⟨_, rfl⟩
    rw [← hx] at h1 ⊢
    have e : A 0 0 * x - b 0 = A 0 0 * (x - b 0 / A 0 0) := by field_simp
    rw [e, abs_mul]
    refine (mul_le_mul_of_nonneg_left h1 (abs_nonneg _)).trans ?_
    have := mul_nonneg (abs_nonneg (A 0 0)) (abs_nonneg x)
    norm_num at this ⊢
    linarith

/-- `[[3, 1], [1, 2]]` -/
def thirdProblem : LinProb Rat :=
  .blocks2 2 (.dense 1 ⟨1, 1, fun _ _ => 3⟩) ⟨1, 1, fun _ _ => 1⟩ ⟨1, 1, fun _ _ => 1⟩ 1 ⟨1, 1, fun _ _ => 2⟩

/-- The hypotheses are met: the set-up succeeds, and all right-hand sides are solved with residuals below `1e-12`. -/
example : thirdProblem.Shaped ∧ (∀ i j, i < 2 → j < 2 → |thirdProblem.shown i j| ≤ 3) ∧
    ∃ S, Rounded.setup Spec.round53 oneLapack seqSched thirdProblem = .ok S ∧ S.ColsBound 1 ∧
      S.residual (fun _ A => |A 0 0| / 2 ^ 52) 3 1 ≤ 1 / 10 ^ 12 := by
  have hsh : thirdProblem.Shaped := by simp only [thirdProblem, Shaped]; decide
  have hσ : seqSched.Valid := ⟨fun _ => List.Perm.refl _, fun _ => List.Perm.refl _⟩
  refine ⟨hsh, fun i j hi hj =>
    (by decide +kernel : ∀ i, i < 2 → ∀ j, j < 2 → |thirdProblem.shown i j| ≤ 3) i hi j hj, ?_⟩
  have e1 : Rounded.setup Spec.round53 oneLapack seqSched (.dense 1 ⟨1, 1, fun _ _ => 3⟩) =
      .ok (.getrs 1 (lapackDense ⟨1, 1, fun _ _ => 3⟩)) := by
    rw [Rounded.setup, LinProb.setup, denseSetup, if_pos (by decide +kernel)]; rfl
  have hS1 := setupR_correct Spec.round53_all oneLapack_backward hσ (a := 3) (B := 1) (by norm_num) (by norm_num)
    (.dense 1 ⟨1, 1, fun _ _ => 3⟩) (by simp only [Shaped]; decide) (by decide) trivial
    (fun i j _ _ => by simp [entry, lapackDense]) _ e1 trivial
  obtain ⟨T, A, hT, hA⟩ := setup2R_eq Spec.round53_all (nq := 1) (brn := 1) (tr := ⟨1, 1, fun _ _ => 1⟩)
    (bl := ⟨1, 1, fun _ _ => 1⟩) (br := ⟨1, 1, fun _ _ => 2⟩) hσ hS1 rfl rfl rfl rfl rfl rfl
  have hT0 : |3 * T.val 0 0 - 1| ≤ 3 / 2 ^ 52 * |T.val 0 0| := by
    have := hT.solves 0 (by decide) 0 (by decide)
    simpa [LinProb.entry, lapackDense, Solver.residual, sum_range_one] using this
  have hA0 : |A 0 0 - (2 - T.val 0 0)| ≤ 1 / 2 ^ 40 * (2 + |T.val 0 0|) := by
    have := hT.near 0 0 (by decide) (by decide)
    simp only [SchurNear, show (1 : U64).toNat = 1 from rfl, sum_range_one, one_mul, abs_one] at this
    rw [abs_of_pos (show (0 : Rat) < 2 by norm_num)] at this
    refine this.trans (mul_le_mul_of_nonneg_right ?_ (by positivity))
    rw [up]; norm_num
  have hTb : 1 / 4 ≤ T.val 0 0 ∧ T.val 0 0 ≤ 1 / 2 := by
    have h1 := abs_le.1 hT0
    rcases abs_cases (T.val 0 0) with ⟨h2, -⟩ | ⟨h2, -⟩ <;> rw [h2] at h1 <;> norm_num at h1 ⊢ <;> constructor <;> linarith
  have hAb : 1 ≤ A 0 0 ∧ A 0 0 ≤ 2 := by
    rw [abs_of_pos (show 0 < T.val 0 0 by linarith)] at hA0
    have h1 := abs_le.1 hA0
    norm_num at h1 ⊢
    constructor <;> linarith
  obtain ⟨-, e2⟩ | ⟨h, -⟩ := hA
  · refine ⟨.blocks2 2 (.getrs 1 (lapackDense ⟨1, 1, fun _ _ => 3⟩)) (Rounded.dense2coo Spec.round53 T)
      (Rounded.dense2coo Spec.round53 ⟨1, 1, fun _ _ => 1⟩) 1 A, ?_, ⟨trivial, ?_⟩, ?_⟩
    · rw [thirdProblem, Rounded.setup, e1, Res.ok_bind]
      show (Rounded.setup2 Spec.round53 oneLapack seqSched 1 _ _ _ _ _ >>= _) = _
      rw [e2]; rfl
    · intro c hc
      obtain rfl : c = 0 := by omega
      rw [colSum_eq _ _ _ (by rw [hT.cols]; decide), hT.rows, norm1, show (1 : U64).toNat = 1 from rfl, sum_range_one]
      refine (trimR_le _ T 0 0).trans ?_
      rw [abs_of_pos (by linarith)]
      linarith
    · simp only [Solver.residual, blockResidual, lapackDense, Solver.size]
      rw [abs_of_pos (show 0 < A 0 0 by linarith), abs_of_pos (show (0 : Rat) < 3 by norm_num)]
      norm_num
      linarith
  · have : A 0 0 ≠ 0 := by linarith
    simp [oneLapack, this] at h

end DDC
