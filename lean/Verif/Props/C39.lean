import Verif.Lemmas.Solve
import Verif.Lemmas.LapackExists
import Mathlib.Tactic.NormNum
import Mathlib.Algebra.Order.Ring.Rat

/-!
# C39: block elimination solves the block systems

`setup_solver` followed by `solve` on any number of right-hand sides, direct or transposed, in any order
of the parallel iterations.  The external direct solvers are assumed exact (`Lapack.Exact`, which can be
met, `exactLapack_exact`).

`_partial`: `dense2coo` drops the entries of `λ` and `Q⁻¹γ` of absolute value below 1e-14, so that the
result is a solution only when there are none (`Clean`); `C39_tiny_entries` is a system that is not
solved.
-/

namespace DDC

open LinProb

variable {K : Type} [Field K] [LinearOrder K]

theorem shown_eq (p : LinProb K) (h : p.Shaped) {i j : Nat} (hi : i < p.size.toNat) (hj : j < p.size.toNat) :
    p.shown i j = p.entry i j := by
  have hs := h.small
  have e : ∀ k, k < p.size.toNat → (BitVec.ofNat 64 k).toNat = k := fun k hk => by
    rw [BitVec.toNat_ofNat, Nat.mod_eq_of_lt (by omega)]
  rw [shown, get_ok p h (by rw [e i hi]; exact hi) (by rw [e j hj]; exact hj), e i hi, e j hj]

theorem shown_solves {p : LinProb K} (h : p.Shaped) {t : Bool} {x b : Nat → K} :
    Solves t p.size.toNat p.shown x b ↔ Solves t p.size.toNat p.entry x b := by
  constructor <;> refine Solves.congr fun i j hi hj => ?_ <;> cases t <;>
    simp only [Bool.false_eq_true, if_false, if_true, shown_eq p h hi hj, shown_eq p h hj hi]

theorem setup_size {L : Lapack K} {σ : Sched} {p : LinProb K} {S : Solver K} (h : p.setup L σ = .ok S) :
    S.size = p.size.toNat := by
  cases p with
  | dense n a =>
    obtain ⟨A, -, e⟩ := Res.bind_eq_ok.1 h
    obtain rfl := Res.ok.inj e; rfl
  | band n kl ku q =>
    simp only [LinProb.setup] at h
    split_ifs at h
    obtain rfl := Res.ok.inj h; rfl
  | pdsBand n ext q =>
    simp only [LinProb.setup] at h
    split_ifs at h
    obtain rfl := Res.ok.inj h; rfl
  | pdsTridiag n q =>
    simp only [LinProb.setup] at h
    split_ifs at h
    obtain rfl := Res.ok.inj h; rfl
  | blocks2 n tl tr bl brn br =>
    obtain ⟨S1, -, h⟩ := Res.bind_eq_ok.1 h
    obtain ⟨⟨t, b, A⟩, -, h⟩ := Res.bind_eq_ok.1 h
    obtain rfl := Res.ok.inj h; rfl
  | blocks3 n top tl tr bl brn br =>
    obtain ⟨S1, -, h⟩ := Res.bind_eq_ok.1 h
    obtain ⟨⟨t, b, A⟩, -, h⟩ := Res.bind_eq_ok.1 h
    obtain rfl := Res.ok.inj h; rfl

/-- Not a tridiagonal problem without unknowns. -/
def Inhabited' : LinProb K → Prop
  | pdsTridiag n _ => 0 < n.toNat
  | _ => True

theorem lapackSymBand_symm (kd : Nat) (q : Mat K) (i j : Nat) : lapackSymBand kd q i j = lapackSymBand kd q j i := by
  simp only [lapackSymBand]
  split_ifs <;> first | rfl | omega | skip
  obtain rfl : i = j := by omega
  rfl

theorem lapackTridiag_symm (d e : Nat → K) (i j : Nat) : lapackTridiag d e i j = lapackTridiag d e j i := by
  simp only [lapackTridiag]
  split_ifs <;> first | rfl | omega | skip
  subst_vars; rfl

/-- What `setup2` computes, when the top-left block has been solved. -/
structure Setup2 (L : Lapack K) (E : Nat → Nat → K) (nq m : Nat) (tr bl br T : Mat K) (A : Nat → Nat → K) : Prop where
  rows : T.rows = nq
  cols : T.cols = m
  solves : ∀ c, c < m → Solves false nq E (fun k => T.val k c) (fun i => tr.val i c)
  eq : ∀ i j, i < m → j < m → A i j = br.val i j - ∑ l ∈ Finset.range nq, bl.val i l * T.val l j

theorem setup2_eq {L : Lapack K} (hL : L.Exact) {σ : Sched} (hσ : σ.Valid) {nq brn : U64} {S : Solver K} {E : Nat → Nat → K}
    (hS : SolvesSystem L S nq.toNat 0 E) {tr bl br : Mat K} (h1 : tr.rows = nq.toNat) (h2 : tr.cols = brn.toNat)
    (h3 : bl.rows = brn.toNat) (h4 : bl.cols = nq.toNat) (h5 : br.rows = brn.toNat) (h6 : br.cols = brn.toNat) :
    ∃ T A, Setup2 L E nq.toNat brn.toNat tr bl br T A ∧
      ((Regular brn.toNat A ∧ setup2 L σ nq S tr bl brn br = .ok (dense2coo T, dense2coo bl, A)) ∨
        (¬Regular brn.toNat A ∧ setup2 L σ nq S tr bl brn br = .throw)) := by
  obtain ⟨T, e1, r1, c1, s1, -⟩ := hS σ hσ false 0 tr (by omega)
  obtain ⟨B, e2, r2, c2, s2⟩ := schur_ok hσ bl T br h3 h4 (by omega) (by omega) h5 h6
  refine ⟨T, B.val, ⟨by omega, by omega, ?_, s2⟩, ?_⟩
  · intro c hc
    have := s1 c (by omega)
    simpa only [Nat.zero_add] using this
  · have e3 : setup2 L σ nq S tr bl brn br =
        (denseSetup L brn B >>= fun A => .ok (dense2coo T, dense2coo bl, A)) := by
      rw [setup2, h1, show nq.toNat = nq.toNat + 0 from rfl, e1, Res.ok_bind]
      simp only [Nat.add_zero]
      rw [e2, Res.ok_bind]
    rw [e3, denseSetup]
    have e4 : lapackDense B = B.val := rfl
    rw [e4]
    by_cases hr : Regular brn.toNat B.val
    · left
      refine ⟨hr, ?_⟩
      rw [if_pos ((hL.regular _ _).2 hr)]; rfl
    · right
      refine ⟨hr, ?_⟩
      rw [if_neg (fun h => hr ((hL.regular _ _).1 h))]; rfl

theorem Regular.congr {n : Nat} {A B : Nat → Nat → K} (h : ∀ i j, i < n → j < n → A i j = B i j) :
    Regular n A ↔ Regular n B := by
  constructor <;> intro hr x hx <;> refine hr x (Solves.congr (fun i j hi hj => ?_) hx) <;>
    simp only [Bool.false_eq_true, if_false, h i j hi hj]

/-- The bottom-right solver only depends on the entries of its matrix: the one of `Setup2` can be used. -/
theorem solve2_setup {L : Lapack K} (hL : L.Exact) {σ : Sched} (hσ : σ.Valid) {nq m : Nat} {S : Solver K}
    {E A : Nat → Nat → K} (hS : SolvesSystem L S nq 0 E) {tr bl br T : Mat K} (hT : Setup2 L E nq m tr bl br T A)
    (hTn : NoTiny nq m T.val) (hbr : bl.rows = m) (hbc : bl.cols = nq) (hbn : NoTiny m nq bl.val)
    (hA : Regular m A) (t : Bool) (off : Nat) (b : Mat K) (h : off + (nq + m) ≤ b.rows) :
    ∃ b', solve2 L σ (nq + m) nq (S.solve L σ) (dense2coo T) (dense2coo bl) m A t (nq + m) off b = .ok b' ∧
      b'.rows = b.rows ∧ b'.cols = b.cols ∧
      (∀ c, c < b.cols → Solves t (nq + m) (entry2 nq E tr bl br) (fun j => b'.val (off + j) c)
        (fun i => b.val (off + i) c)) ∧
      ∀ r c, r < off ∨ off + (nq + m) ≤ r → b'.val r c = b.val r c :=
  solve2_ok hL hσ hS hT.solves hT.rows hT.cols hTn hbr hbc hbn hA hT.eq t off b h

/-- The invariant of the set-up. -/
theorem setup_correct {L : Lapack K} (hL : L.Exact) {σ : Sched} (hσ : σ.Valid) (p : LinProb K) (h : p.Shaped)
    (hc : p.Clean) (hi : Inhabited' p) (S : Solver K) (hS : p.setup L σ = .ok S) :
    SolvesSystem L S p.size.toNat p.extra p.entry := by
  induction p generalizing S with
  | dense n a =>
    obtain ⟨A, e, hS⟩ := Res.bind_eq_ok.1 hS
    obtain rfl := Res.ok.inj hS
    rw [denseSetup] at e
    split_ifs at e with hr
    obtain rfl := Res.ok.inj e
    intro σ hσ t off b hb
    exact denseSolve_ok hL hσ ((hL.regular _ _).1 hr) b hb
  | band n kl ku q =>
    simp only [LinProb.setup] at hS
    split_ifs at hS with hr
    obtain rfl := Res.ok.inj hS
    intro σ hσ t off b hb
    simp only [Solver.solve, extra, Nat.add_zero, size, decide_true, Res.guardAbort_true, Res.pure_eq, Res.ok_bind]
    exact direct_ok hL hσ ((hL.regular _ _).1 hr) b hb
  | pdsBand n ext q =>
    simp only [LinProb.setup] at hS
    split_ifs at hS with hr
    obtain rfl := Res.ok.inj hS
    intro σ hσ t off b hb
    simp only [Solver.solve, extra, Nat.add_zero, size, decide_true, Res.guardAbort_true, Res.pure_eq, Res.ok_bind]
    obtain ⟨b', e, r, c, s, o⟩ := direct_ok (t := false) hL hσ (Regular.of_posDef ((hL.posDef _ _).1 hr)) b hb
    refine ⟨b', e, r, c, fun c hc => Solves.congr (fun i j _ _ => ?_) (s c hc), o⟩
    have e1 : (ext - 1).toNat = ext.toNat - 1 := by
      rw [toNat_sub_le (by have := h.2.1; rw [toNat_one]; omega), toNat_one]
    cases t
    · simp only [Bool.false_eq_true, if_false, entry, e1]
    · simp only [Bool.false_eq_true, if_false, if_true, entry, e1]
      exact lapackSymBand_symm _ _ _ _
  | pdsTridiag n q =>
    simp only [LinProb.setup] at hS
    split_ifs at hS with hr
    obtain rfl := Res.ok.inj hS
    intro σ hσ t off b hb
    simp only [Solver.solve, extra, Nat.add_zero, size, decide_true, Res.guardAbort_true, Res.pure_eq, Res.ok_bind]
    rw [if_neg (by simp only [Inhabited'] at hi; omega)]
    obtain ⟨b', e, r, c, s, o⟩ := direct_ok (t := false) hL hσ (Regular.of_posDef ((hL.posDef _ _).1 hr)) b hb
    refine ⟨b', e, r, c, fun c hc => Solves.congr (fun i j _ _ => ?_) (s c hc), o⟩
    cases t
    · simp only [Bool.false_eq_true, if_false, entry]
    · simp only [Bool.false_eq_true, if_false, if_true, entry]
      exact lapackTridiag_symm _ _ _ _
  | blocks2 n tl tr bl brn br ih =>
    obtain ⟨hn, ht, hs, h1, h2, h3, h4, h5, h6⟩ := h
    obtain ⟨S1, e1, hS⟩ := Res.bind_eq_ok.1 hS
    obtain ⟨⟨t, b, A⟩, e2, hS⟩ := Res.bind_eq_ok.1 hS
    obtain rfl := Res.ok.inj hS
    have htl := tl_ok h1 e1 e2
    have hS1 := ih ht hc.1 htl.1 S1 e1
    rw [htl.2] at hS1
    obtain ⟨T, A', hT, ⟨hA, e3⟩ | ⟨-, e3⟩⟩ := setup2_eq hL hσ hS1 h1 h2 h3 h4 h5 h6
    · rw [e2] at e3
      obtain ⟨rfl, e4⟩ := Prod.mk.inj (Res.ok.inj e3)
      obtain ⟨rfl, rfl⟩ := Prod.mk.inj e4
      intro σ' hσ' t off b hb
      simp only [size, extra, Nat.add_zero, ← hs] at hb ⊢
      simp only [Solver.solve, setup_size e1]
      refine solve2_setup hL hσ' hS1 hT (hc.2.2 _ fun c hc => ?_) h3 h4 hc.2.1 hA t off b hb
      exact (shown_solves ht).2 (hT.solves c hc)
    · rw [e2] at e3; cases e3
  | blocks3 n top tl tr bl brn br ih =>
    obtain ⟨hn, ht, hs, h1, h2, h3, h4, h5, h6, h7⟩ := h
    obtain ⟨S1, e1, hS⟩ := Res.bind_eq_ok.1 hS
    obtain ⟨⟨t, b, A⟩, e2, hS⟩ := Res.bind_eq_ok.1 hS
    obtain rfl := Res.ok.inj hS
    have htl := tl_ok h1 e1 e2
    have hS1 := ih ht hc.1 htl.1 S1 e1
    rw [htl.2] at hS1
    obtain ⟨T, A', hT, ⟨hA, e3⟩ | ⟨-, e3⟩⟩ := setup2_eq hL hσ hS1 h1 h2 h3 h4 h5 h6
    · rw [e2] at e3
      obtain ⟨rfl, e4⟩ := Prod.mk.inj (Res.ok.inj e3)
      obtain ⟨rfl, rfl⟩ := Prod.mk.inj e4
      intro σ' hσ' t off b hb
      simp only [size, extra] at hb ⊢
      obtain ⟨b1, f1, r1, c1, s1, o1⟩ := interchange3to2_ok (top := top.toNat) (nq := tl.size.toNat) (n := n.toNat)
        (off := off) (by omega) b hb
      obtain ⟨b2, f2, r2, c2, s2, o2⟩ := solve2_setup hL hσ' hS1 hT
        (hc.2.2 _ fun c hc => (shown_solves ht).2 (hT.solves c hc)) h3 h4 hc.2.1 hA t (off + top.toNat) b1
        (by omega)
      obtain ⟨b3, f3, r3, c3, s3, o3⟩ := interchange2to3_ok (top := top.toNat) (nq := tl.size.toNat) (n := n.toNat)
        (off := off) (by omega) b2 (by omega)
      refine ⟨b3, ?_, by omega, by omega, ?_, ?_⟩
      · simp only [Solver.solve, setup_size e1, decide_true, Res.guardAbort_true, Res.pure_eq, Res.ok_bind]
        rw [f1, Res.ok_bind, ← hs, f2, Res.ok_bind, hs, f3]
      · intro c hc i hi
        have hp : pos3 top.toNat tl.size.toNat i < tl.size.toNat + brn.toNat := by
          rw [pos3]; split_ifs <;> omega
        have h8 := s2 c (by omega) _ hp
        simp only at h8
        rw [s1 c i hi] at h8
        dsimp only
        rw [← h8, hs]
        refine Eq.trans ?_ (sum_pos3 (top := top.toNat) (nq := tl.size.toNat) (n := n.toNat) (by omega) _)
        refine Finset.sum_congr rfl fun j hj => ?_
        rw [s3 c j (Finset.mem_range.1 hj)]
        simp only [entry]
      · intro r c hr
        rw [o3 r c hr, o2 r c (by omega), o1 r c hr]
    · rw [e2] at e3; cases e3
where
  /-- The top-left block has been solved: it needs no more rows, and it is not an empty tridiagonal one. -/
  tl_ok {tl : LinProb K} {S1 : Solver K} {tr bl br : Mat K} {brn : U64} {x : Coo K × Coo K × (Nat → Nat → K)}
      (h1 : tr.rows = tl.size.toNat) (e1 : tl.setup L σ = .ok S1) (e2 : setup2 L σ tl.size S1 tr bl brn br = .ok x) :
      Inhabited' tl ∧ tl.extra = 0 := by
    obtain ⟨T, e, -⟩ := Res.bind_eq_ok.1 e2
    cases tl with
    | dense n a => exact ⟨trivial, rfl⟩
    | band n kl ku q => exact ⟨trivial, rfl⟩
    | pdsBand n ext q => exact ⟨trivial, rfl⟩
    | pdsTridiag n q =>
      refine ⟨?_, rfl⟩
      simp only [LinProb.setup] at e1
      split_ifs at e1
      obtain rfl := Res.ok.inj e1
      simp only [Solver.solve] at e
      obtain ⟨-, -, e⟩ := Res.bind_eq_ok.1 e
      split_ifs at e with h0
      simp only [Inhabited']
      omega
    | blocks2 n tl tr bl brn br => exact ⟨trivial, rfl⟩
    | blocks3 n top tl' tr' bl brn br =>
      refine ⟨trivial, ?_⟩
      obtain ⟨S2, -, e1⟩ := Res.bind_eq_ok.1 e1
      obtain ⟨⟨t, b, A⟩, -, e1⟩ := Res.bind_eq_ok.1 e1
      obtain rfl := Res.ok.inj e1
      simp only [Solver.solve] at e
      obtain ⟨_, e, -⟩ := Res.bind_eq_ok.1 e
      simp only [extra]
      simp only [size] at h1
      by_contra h0
      rw [decide_eq_false (by omega)] at e
      cases e

/-- Every system is solved, in place, and nothing else is written.  Missing: the systems whose blocks
`λ` or `Q⁻¹γ` have entries of absolute value below 1e-14 that are not zero. -/
theorem C39_solves_partial {L : Lapack K} (hL : L.Exact) {σ : Sched} (hσ : σ.Valid) (p : LinProb K) (h : p.Shaped)
    (h0 : 0 < p.size.toNat) (hc : p.Clean) (S : Solver K) (hS : p.setup L σ = .ok S) :
    SolvesSystem L S p.size.toNat p.extra p.shown := by
  have hi : Inhabited' p := by cases p <;> first | trivial | exact h0
  intro σ' hσ' t off b hb
  obtain ⟨b', e, r, c, s, o⟩ := setup_correct hL hσ p h hc hi S hS σ' hσ' t off b hb
  exact ⟨b', e, r, c, fun c hc => (shown_solves h).2 (s c hc), o⟩

/-! ## The set-up succeeds exactly for the regular matrices -/

theorem schur_regular {L : Lapack K} {nq m : Nat} {E A : Nat → Nat → K} {tr bl br T : Mat K}
    (hT : Setup2 L E nq m tr bl br T A) (hE : Regular nq E) :
    Regular m A ↔ Regular (nq + m) (entry2 nq E tr bl br) := by
  have hAr : Regular m A ↔ Regular m (fun i j => br.val i j - ∑ l ∈ Finset.range nq, bl.val i l * T.val l j) :=
    Regular.congr hT.eq
  rw [hAr]
  constructor
  · intro hA x hx
    have h1 : ∀ j, j < nq → x j + ∑ c ∈ Finset.range m, T.val j c * x (nq + c) = 0 := by
      refine hE _ fun i hi => ?_
      have h2 := hx i (by omega)
      rw [sum_tl nq m E tr bl br i hi false] at h2
      simp only [Bool.false_eq_true, if_false] at h2 ⊢
      simp only [mul_add, Finset.sum_add_distrib, sum_swap]
      rw [← h2]
      congr 1
      refine Finset.sum_congr rfl fun c hc => ?_
      have h3 := hT.solves c (Finset.mem_range.1 hc) i hi
      simp only [Bool.false_eq_true, if_false] at h3
      rw [h3]
    have h4 : ∀ c, c < m → x (nq + c) = 0 := by
      refine hA _ fun i hi => ?_
      have h2 := hx (nq + i) (by omega)
      rw [sum_br nq m E tr bl br i false] at h2
      simp only [Bool.false_eq_true, if_false] at h2 ⊢
      simp only [sub_mul, Finset.sum_sub_distrib]
      rw [← sum_swap]
      have h5 : ∑ j ∈ Finset.range nq, bl.val i j * x j =
          -∑ j ∈ Finset.range nq, bl.val i j * ∑ c ∈ Finset.range m, T.val j c * x (nq + c) := by
        rw [← Finset.sum_neg_distrib]
        refine Finset.sum_congr rfl fun j hj => ?_
        linear_combination bl.val i j * h1 j (Finset.mem_range.1 hj)
      rw [h5] at h2
      linear_combination h2
    intro j hj
    rcases Nat.lt_or_ge j nq with h | h
    · have h6 := h1 j h
      rw [Finset.sum_eq_zero fun c hc => by rw [h4 c (Finset.mem_range.1 hc), mul_zero]] at h6
      simpa using h6
    · obtain ⟨k, rfl⟩ := Nat.exists_eq_add_of_le h
      exact h4 k (by omega)
  · intro hM z hz c hc
    have h1 := hM (fun j => if j < nq then -∑ c ∈ Finset.range m, T.val j c * z c else z (j - nq)) ?_ (nq + c) (by omega)
    · rw [if_neg (by omega), Nat.add_sub_cancel_left] at h1
      exact h1
    · refine block_solves (T := T.val) hT.solves (y := fun _ => 0) ?_ ?_ ?_
      · intro i _; simp
      · intro i hi
        have h2 := hz i hi
        dsimp only at h2
        simp only [Nat.add_sub_cancel_left, mul_zero, Finset.sum_const_zero, sub_zero]
        rw [← h2]
        refine Finset.sum_congr rfl fun j _ => ?_
        simp only [Bool.false_eq_true, if_false]
        rw [if_neg (by omega)]
      · intro j hj
        simp only [hj, if_true, zero_sub, Nat.add_sub_cancel_left]
        congr 1
        refine Finset.sum_congr rfl fun c _ => ?_
        rw [if_neg (by omega)]

theorem regular_pos3 {top nq n : Nat} (h : top + nq ≤ n) (M : Nat → Nat → K) :
    Regular n (fun i j => M (pos3 top nq i) (pos3 top nq j)) ↔ Regular n M := by
  obtain ⟨g, hg, hg', hgl⟩ : ∃ g : Nat → Nat, (∀ i, pos3 top nq (g i) = i) ∧ (∀ i, g (pos3 top nq i) = i) ∧
      ∀ i, i < n → g i < n := by
    refine ⟨fun j => if j < nq then j + top else if j < nq + top then j - nq else j, ?_, ?_, ?_⟩
    · intro i; simp only [pos3]; split_ifs <;> omega
    · intro i; simp only [pos3]; split_ifs <;> omega
    · intro i hi; simp only; split_ifs <;> omega
  have hp : ∀ i, i < n → pos3 top nq i < n := by intro i hi; rw [pos3]; split_ifs <;> omega
  constructor
  · intro hr x hx j hj
    have h1 := hr (fun j => x (pos3 top nq j)) ?_ (g j) (hgl j hj)
    · simpa only [hg] using h1
    · intro i hi
      have h2 := hx (pos3 top nq i) (hp i hi)
      simp only [Bool.false_eq_true, if_false] at h2 ⊢
      rw [sum_pos3 h (fun j => M (pos3 top nq i) j * x j), h2]
  · intro hr x hx j hj
    have h1 := hr (fun j => x (g j)) ?_ (pos3 top nq j) (hp j hj)
    · simpa only [hg'] using h1
    · intro i hi
      have h2 := hx (g i) (hgl i hi)
      simp only [Bool.false_eq_true, if_false] at h2 ⊢
      rw [← sum_pos3 h, ← h2]
      simp only [hg, hg']

theorem setup_regular {L : Lapack K} (hL : L.Exact) {σ : Sched} (hσ : σ.Valid) (p : LinProb K) (h : p.Shaped)
    (hc : p.Clean) (S : Solver K) (hS : p.setup L σ = .ok S) : Regular p.size.toNat p.entry := by
  induction p generalizing S with
  | dense n a =>
    obtain ⟨A, e, hS⟩ := Res.bind_eq_ok.1 hS
    rw [denseSetup] at e
    split_ifs at e with hr
    exact (hL.regular _ _).1 hr
  | band n kl ku q =>
    simp only [LinProb.setup] at hS
    split_ifs at hS with hr
    exact (hL.regular _ _).1 hr
  | pdsBand n ext q =>
    simp only [LinProb.setup] at hS
    split_ifs at hS with hr
    have e1 : (ext - 1).toNat = ext.toNat - 1 := by
      rw [toNat_sub_le (by have := h.2.1; rw [toNat_one]; omega), toNat_one]
    rw [e1] at hr
    exact Regular.of_posDef ((hL.posDef _ _).1 hr)
  | pdsTridiag n q =>
    simp only [LinProb.setup] at hS
    split_ifs at hS with hr
    exact Regular.of_posDef ((hL.posDef _ _).1 hr)
  | blocks2 n tl tr bl brn br ih =>
    obtain ⟨hn, ht, hs, h1, h2, h3, h4, h5, h6⟩ := h
    obtain ⟨S1, e1, hS⟩ := Res.bind_eq_ok.1 hS
    obtain ⟨⟨t, b, A⟩, e2, hS⟩ := Res.bind_eq_ok.1 hS
    have htl := setup_correct.tl_ok h1 e1 e2
    have hS1 := setup_correct hL hσ tl ht hc.1 htl.1 S1 e1
    rw [htl.2] at hS1
    obtain ⟨T, A', hT, ⟨hA, e3⟩ | ⟨-, e3⟩⟩ := setup2_eq hL hσ hS1 h1 h2 h3 h4 h5 h6
    · have := (schur_regular hT (ih ht hc.1 S1 e1)).1 hA
      rw [hs] at this
      exact this
    · rw [e2] at e3; cases e3
  | blocks3 n top tl tr bl brn br ih =>
    obtain ⟨hn, ht, hs, h1, h2, h3, h4, h5, h6, h7⟩ := h
    obtain ⟨S1, e1, hS⟩ := Res.bind_eq_ok.1 hS
    obtain ⟨⟨t, b, A⟩, e2, hS⟩ := Res.bind_eq_ok.1 hS
    have htl := setup_correct.tl_ok h1 e1 e2
    have hS1 := setup_correct hL hσ tl ht hc.1 htl.1 S1 e1
    rw [htl.2] at hS1
    obtain ⟨T, A', hT, ⟨hA, e3⟩ | ⟨-, e3⟩⟩ := setup2_eq hL hσ hS1 h1 h2 h3 h4 h5 h6
    · have := (schur_regular hT (ih ht hc.1 S1 e1)).1 hA
      rw [hs] at this
      exact (regular_pos3 (n := n.toNat) (by omega) _).2 this
    · rw [e2] at e3; cases e3

theorem regular_shown {p : LinProb K} (h : p.Shaped) : Regular p.size.toNat p.shown ↔ Regular p.size.toNat p.entry :=
  Regular.congr fun _ _ hi hj => shown_eq p h hi hj

theorem posDef_shown {p : LinProb K} (h : p.Shaped) : PosDef p.size.toNat p.shown ↔ PosDef p.size.toNat p.entry := by
  have e : ∀ x : Nat → K, ∑ i ∈ Finset.range p.size.toNat, ∑ j ∈ Finset.range p.size.toNat, x i * p.shown i j * x j =
      ∑ i ∈ Finset.range p.size.toNat, ∑ j ∈ Finset.range p.size.toNat, x i * p.entry i j * x j := fun x =>
    Finset.sum_congr rfl fun i hi => Finset.sum_congr rfl fun j hj => by
      rw [shown_eq p h (Finset.mem_range.1 hi) (Finset.mem_range.1 hj)]
  simp only [PosDef, e]

/-- The matrices that are factorised by the direct solvers: the set-up succeeds if and only if the matrix
is regular (positive definite, for the symmetric storages), and throws otherwise. -/
theorem C39_setup_direct {L : Lapack K} (hL : L.Exact) (σ : Sched) (p : LinProb K) (h : p.Shaped) :
    (match p with
      | .dense _ _ => (Regular p.size.toNat p.shown → ∃ S, p.setup L σ = .ok S) ∧
        (¬Regular p.size.toNat p.shown → p.setup L σ = .throw)
      | .band _ _ _ _ => (Regular p.size.toNat p.shown → ∃ S, p.setup L σ = .ok S) ∧
        (¬Regular p.size.toNat p.shown → p.setup L σ = .throw)
      | .pdsBand _ _ _ => (PosDef p.size.toNat p.shown → ∃ S, p.setup L σ = .ok S) ∧
        (¬PosDef p.size.toNat p.shown → p.setup L σ = .throw)
      | .pdsTridiag _ _ => (PosDef p.size.toNat p.shown → ∃ S, p.setup L σ = .ok S) ∧
        (¬PosDef p.size.toNat p.shown → p.setup L σ = .throw)
      | _ => True) := by
  have hreg := regular_shown h
  have hpos := posDef_shown h
  cases p with
  | dense n a =>
    dsimp only
    rw [hreg]
    simp only [size, entry]
    refine ⟨fun hr => ⟨.getrs n.toNat (lapackDense a), ?_⟩, fun hr => ?_⟩
    · rw [LinProb.setup, denseSetup, if_pos ((hL.regular _ _).2 hr)]; rfl
    · rw [LinProb.setup, denseSetup, if_neg (fun h => hr ((hL.regular _ _).1 h))]; rfl
  | band n kl ku q =>
    dsimp only
    rw [hreg]
    simp only [size, entry]
    refine ⟨fun hr => ⟨_, by rw [LinProb.setup, if_pos ((hL.regular _ _).2 hr)]⟩, fun hr => ?_⟩
    rw [LinProb.setup, if_neg (fun h => hr ((hL.regular _ _).1 h))]
  | pdsBand n ext q =>
    dsimp only
    rw [hpos]
    simp only [size, entry]
    have e1 : (ext - 1).toNat = ext.toNat - 1 := by
      rw [toNat_sub_le (by have := h.2.1; rw [toNat_one]; omega), toNat_one]
    refine ⟨fun hr => ⟨_, by rw [LinProb.setup, e1, if_pos ((hL.posDef _ _).2 hr)]⟩, fun hr => ?_⟩
    rw [LinProb.setup, e1, if_neg (fun h => hr ((hL.posDef _ _).1 h))]
  | pdsTridiag n q =>
    dsimp only
    rw [hpos]
    simp only [size, entry]
    refine ⟨fun hr => ⟨_, by rw [LinProb.setup, if_pos ((hL.posDef _ _).2 hr)]⟩, fun hr => ?_⟩
    rw [LinProb.setup, if_neg (fun h => hr ((hL.posDef _ _).1 h))]
  | blocks2 n tl tr bl brn br => trivial
  | blocks3 n top tl tr bl brn br => trivial

/-- The block matrices: once the top-left block is set up, the set-up succeeds if and only if the whole
matrix is regular, and throws otherwise. -/
theorem C39_setup_blocks {L : Lapack K} (hL : L.Exact) {σ : Sched} (hσ : σ.Valid) (p tl : LinProb K) (h : p.Shaped)
    (hp : (∃ n tr bl brn br, p = .blocks2 n tl tr bl brn br) ∨ ∃ n top tr bl brn br, p = .blocks3 n top tl tr bl brn br)
    (hc : tl.Clean) (h0 : 0 < tl.size.toNat) (hx : tl.extra = 0) (S1 : Solver K) (hS : tl.setup L σ = .ok S1) :
    (Regular p.size.toNat p.shown → ∃ S, p.setup L σ = .ok S) ∧
      (¬Regular p.size.toNat p.shown → p.setup L σ = .throw) := by
  have hreg := regular_shown h
  have hi : Inhabited' tl := by cases tl <;> first | trivial | exact h0
  rw [hreg]
  rcases hp with ⟨n, tr, bl, brn, br, rfl⟩ | ⟨n, top, tr, bl, brn, br, rfl⟩
  · obtain ⟨hn, ht, hs, h1, h2, h3, h4, h5, h6⟩ := h
    have hS1 := setup_correct hL hσ tl ht hc hi S1 hS
    rw [hx] at hS1
    obtain ⟨T, A, hT, hA⟩ := setup2_eq hL hσ hS1 h1 h2 h3 h4 h5 h6
    have h7 := schur_regular hT (setup_regular hL hσ tl ht hc S1 hS)
    rw [hs] at h7
    have h8 : Regular (size (.blocks2 n tl tr bl brn br)).toNat (entry (.blocks2 n tl tr bl brn br)) ↔
        Regular brn.toNat A := h7.symm
    rw [h8]
    rcases hA with ⟨hA, e⟩ | ⟨hA, e⟩
    · refine ⟨fun _ => ⟨.blocks2 n.toNat S1 (dense2coo T) (dense2coo bl) brn.toNat A, ?_⟩, fun h => absurd hA h⟩
      rw [LinProb.setup, hS, Res.ok_bind, e]; rfl
    · refine ⟨fun h => absurd h hA, fun _ => ?_⟩
      rw [LinProb.setup, hS, Res.ok_bind, e]; rfl
  · obtain ⟨hn, ht, hs, h1, h2, h3, h4, h5, h6, h9⟩ := h
    have hS1 := setup_correct hL hσ tl ht hc hi S1 hS
    rw [hx] at hS1
    obtain ⟨T, A, hT, hA⟩ := setup2_eq hL hσ hS1 h1 h2 h3 h4 h5 h6
    have h7 := schur_regular hT (setup_regular hL hσ tl ht hc S1 hS)
    rw [hs, ← regular_pos3 (top := top.toNat) (nq := tl.size.toNat) (n := n.toNat) (by omega)
      (entry2 _ _ _ _ _)] at h7
    have h8 : Regular (size (.blocks3 n top tl tr bl brn br)).toNat (entry (.blocks3 n top tl tr bl brn br)) ↔
        Regular brn.toNat A := h7.symm
    rw [h8]
    rcases hA with ⟨hA, e⟩ | ⟨hA, e⟩
    · refine ⟨fun _ => ⟨.blocks3 n.toNat top.toNat S1 (dense2coo T) (dense2coo bl) brn.toNat A, ?_⟩,
        fun h => absurd hA h⟩
      rw [LinProb.setup, hS, Res.ok_bind, e]; rfl
    · refine ⟨fun h => absurd h hA, fun _ => ?_⟩
      rw [LinProb.setup, hS, Res.ok_bind, e]; rfl

/-! ## The number of rows -/

/-- The number of rows that `solve` requires is the one that is announced. -/
theorem C39_required_rows (p : LinProb K) (h : p.Shaped) :
    ∃ r, p.requiredRows = .ok r ∧ r.toNat = p.size.toNat + p.extra := by
  have hs := h.small
  have key : p.implRequiredRows.toNat = p.size.toNat + p.extra := by
    cases p with
    | blocks3 n top tl tr bl brn br =>
      obtain ⟨hn, -, h1, -, -, -, -, -, -, h2⟩ := h
      simp only [implRequiredRows, size, extra]
      rw [toNat_add_lt (by omega)]
    | _ => rfl
  refine ⟨p.implRequiredRows, ?_, key⟩
  rw [requiredRows, decide_eq_true (by rw [BitVec.le_def]; omega)]
  rfl

/-- Any other number of rows is refused. -/
theorem C39_wrong_rows {L : Lapack K} {σ σ' : Sched} (p : LinProb K) (S : Solver K)
    (hS : p.setup L σ = .ok S) (t : Bool) (len off : Nat) (b : Mat K) (hl : len ≠ p.size.toNat + p.extra) :
    S.solve L σ' t len off b = .abort := by
  cases p with
  | dense n a =>
    obtain ⟨A, -, e⟩ := Res.bind_eq_ok.1 hS
    obtain rfl := Res.ok.inj e
    rw [Solver.solve, denseSolve, decide_eq_false (by simpa only [size, extra, Nat.add_zero] using hl)]; rfl
  | band n kl ku q =>
    simp only [LinProb.setup] at hS
    split_ifs at hS
    obtain rfl := Res.ok.inj hS
    rw [Solver.solve, decide_eq_false (by simpa only [size, extra, Nat.add_zero] using hl)]; rfl
  | pdsBand n ext q =>
    simp only [LinProb.setup] at hS
    split_ifs at hS
    obtain rfl := Res.ok.inj hS
    rw [Solver.solve, decide_eq_false (by simpa only [size, extra, Nat.add_zero] using hl)]; rfl
  | pdsTridiag n q =>
    simp only [LinProb.setup] at hS
    split_ifs at hS
    obtain rfl := Res.ok.inj hS
    rw [Solver.solve, decide_eq_false (by simpa only [size, extra, Nat.add_zero] using hl)]; rfl
  | blocks2 n tl tr bl brn br =>
    obtain ⟨S1, -, h⟩ := Res.bind_eq_ok.1 hS
    obtain ⟨⟨t, b, A⟩, -, h⟩ := Res.bind_eq_ok.1 h
    obtain rfl := Res.ok.inj h
    rw [Solver.solve, solve2, decide_eq_false (by simpa only [size, extra, Nat.add_zero] using hl)]; rfl
  | blocks3 n top tl tr bl brn br =>
    obtain ⟨S1, -, h⟩ := Res.bind_eq_ok.1 hS
    obtain ⟨⟨t, b, A⟩, -, h⟩ := Res.bind_eq_ok.1 h
    obtain rfl := Res.ok.inj h
    rw [Solver.solve, decide_eq_false (by simpa only [size, extra, Nat.add_zero] using hl)]; rfl

/-! ## A case -/

/-- `[[2, 0, 1], [0, 4, 0], [1, 0, 1]]`, the centre being the second row and column: one top row, one
bottom row. -/
def sampleProblem : LinProb ℚ :=
  .blocks3 3 1 (.dense 1 ⟨1, 1, fun _ _ => 4⟩) ⟨1, 2, fun _ _ => 0⟩ ⟨2, 1, fun _ _ => 0⟩ 2
    ⟨2, 2, fun i j => if i = 0 ∧ j = 0 then 2 else 1⟩

example : sampleProblem.Shaped ∧ 0 < sampleProblem.size.toNat ∧ sampleProblem.extra = 1 := by
  simp only [sampleProblem, Shaped]; decide

example : (List.range 3).map (fun i => (List.range 3).map (sampleProblem.shown i)) =
    [[2, 0, 1], [0, 4, 0], [1, 0, 1]] := by decide +kernel

example : sampleProblem.Clean := by
  refine ⟨trivial, fun i j _ _ => Or.inl rfl, fun X hX i j hi hj => Or.inl ?_⟩
  have hi' : i = 0 := by simp [size] at hi; exact hi
  subst hi'
  have h := hX j hj 0 (by decide)
  have e : (LinProb.dense 1 ⟨1, 1, fun _ _ => 4⟩ : LinProb ℚ).shown 0 0 = 4 := by decide +kernel
  simp only [size, show (1 : U64).toNat = 1 from rfl, Finset.sum_range_one, Bool.false_eq_true, if_false, e] at h
  rcases mul_eq_zero.1 h with h | h
  · norm_num at h
  · exact h

/-- The iterations in increasing order. -/
def seqSched : Sched := ⟨fun n => List.range n, fun n => (List.range n).product (List.range n)⟩

example : seqSched.Valid := ⟨fun _ => List.Perm.refl _, fun _ => List.Perm.refl _⟩

/-! ## Small entries -/

/-- `[[1, 1], [1e-15, 1]]` -/
def tinyProblem : LinProb ℚ :=
  .blocks2 2 (.dense 1 ⟨1, 1, fun _ _ => 1⟩) ⟨1, 1, fun _ _ => 1⟩ ⟨1, 1, fun _ _ => 1 / 10 ^ 15⟩ 1
    ⟨1, 1, fun _ _ => 1⟩

theorem solves_one {A : Nat → Nat → ℚ} {x b : Nat → ℚ} : Solves false 1 A x b ↔ A 0 0 * x 0 = b 0 := by
  constructor
  · intro h
    have := h 0 (by omega)
    simpa using this
  · intro h i hi
    obtain rfl : i = 0 := by omega
    simpa using h

/-- The solver that ignores the small entries does not solve the system. -/
theorem C39_tiny_entries {L : Lapack ℚ} (hL : L.Exact) {σ : Sched} (hσ : σ.Valid) :
    tinyProblem.Shaped ∧ Regular 2 tinyProblem.shown ∧
    ∃ S, tinyProblem.setup L σ = .ok S ∧ ¬SolvesSystem L S 2 0 tinyProblem.shown := by
  have hsh : tinyProblem.Shaped := by
    simp only [tinyProblem, Shaped]; decide
  have ht : (LinProb.dense 1 ⟨1, 1, fun _ _ => 1⟩ : LinProb ℚ).Shaped := by
    simp only [Shaped]; decide
  have hq : Regular 1 (lapackDense (⟨1, 1, fun _ _ => 1⟩ : Mat ℚ)) := by
    intro x hx j hj
    obtain rfl : j = 0 := by omega
    have := solves_one.1 hx
    simpa [lapackDense] using this
  have e1 : (LinProb.dense 1 ⟨1, 1, fun _ _ => 1⟩ : LinProb ℚ).setup L σ =
      .ok (.getrs 1 (lapackDense ⟨1, 1, fun _ _ => 1⟩)) := by
    rw [LinProb.setup, denseSetup, show BitVec.toNat (1 : U64) = 1 from rfl, if_pos ((hL.regular _ _).2 hq)]; rfl
  have hS1 := setup_correct hL hσ _ ht trivial trivial _ e1
  obtain ⟨T, A, hT, hA⟩ := setup2_eq (nq := 1) (brn := 1) (tr := ⟨1, 1, fun _ _ => 1⟩)
    (bl := ⟨1, 1, fun _ _ => 1 / 10 ^ 15⟩) (br := ⟨1, 1, fun _ _ => 1⟩) hL hσ hS1 rfl rfl rfl rfl rfl rfl
  have hT0 : T.val 0 0 = 1 := by
    have := solves_one.1 (hT.solves 0 (by decide))
    simpa [LinProb.entry, lapackDense] using this
  have hA0 : A 0 0 = 1 - 1 / 10 ^ 15 := by
    rw [hT.eq 0 0 (by decide) (by decide)]
    show (1 : ℚ) - ∑ l ∈ Finset.range 1, 1 / 10 ^ 15 * T.val l 0 = _
    rw [Finset.sum_range_one, hT0, mul_one]
  have hAr : Regular 1 A := by
    intro x hx j hj
    obtain rfl : j = 0 := by omega
    have := solves_one.1 hx
    rw [hA0] at this
    rcases mul_eq_zero.1 this with h | h
    · norm_num at h
    · exact h
  rcases hA with ⟨-, e2⟩ | ⟨hA, -⟩
  swap
  · exact absurd hAr hA
  have hS : tinyProblem.setup L σ = .ok (.blocks2 2 (.getrs 1 (lapackDense ⟨1, 1, fun _ _ => 1⟩)) (dense2coo T)
      (dense2coo ⟨1, 1, fun _ _ => 1 / 10 ^ 15⟩) 1 A) := by
    rw [tinyProblem, LinProb.setup, e1, Res.ok_bind]
    show (setup2 L σ 1 _ _ _ 1 _ >>= _) = _
    rw [e2]; rfl
  refine ⟨hsh, ?_, _, hS, ?_⟩
  · refine (regular_shown hsh).2 ?_
    show Regular 2 _
    exact (schur_regular hT hq).1 hAr
  · intro hsol
    obtain ⟨b', e, r, c, s, o⟩ := hsol σ hσ false 0 ⟨2, 1, fun r _ => if r = 0 then 1 else 0⟩ (by decide)
    obtain ⟨b1, f1, r1, c1, s1, o1⟩ := hS1 σ hσ false 0 ⟨2, 1, fun r _ => if r = 0 then 1 else 0⟩ (by decide)
    have hz : (dense2coo (⟨1, 1, fun _ _ => 1 / 10 ^ 15⟩ : Mat ℚ)) = ⟨1, 1, []⟩ := by
      rw [dense2coo]
      have : ¬(cooTol : ℚ) ≤ |1 / 10 ^ 15| := by
        rw [cooTol, abs_of_nonneg (by norm_num)]; norm_num
      show (⟨1, 1, (List.range 1).flatMap fun i => (List.range 1).filterMap fun j =>
        if (cooTol : ℚ) ≤ |1 / 10 ^ 15| then some (i, j, 1 / 10 ^ 15) else none⟩ : Coo ℚ) = _
      simp only [if_neg this]
      rfl
    obtain ⟨b2, f2, r2, c2, s2, o2⟩ := spdm_ok (tr := false) (xoff := 0) (xlen := 1) (yoff := 1) (ylen := 1)
      hσ (op := (⟨1, 1, []⟩ : Coo ℚ)) (by omega) rfl rfl (by simp) b1 (by rw [r1]; exact Nat.le_succ 1) (by rw [r1])
    obtain ⟨b3, f3, r3, c3, s3, o3⟩ := denseSolve_ok (t := false) (off := 1) hL hσ hAr b2 (by rw [r2, r1])
    obtain ⟨b4, f4, r4, c4, s4, o4⟩ := spdm_ok (tr := false) (xoff := 1) (xlen := 1) (yoff := 0) (ylen := 1)
      hσ (op := dense2coo T) (by omega) hT.rows hT.cols
      (dense2coo_mem T) b3 (by rw [r3, r2, r1]) (by rw [r3, r2, r1]; exact Nat.le_succ 1)
    have e' : b' = b4 := by
      rw [hz, Solver.solve, solve2] at e
      have g1 : Solver.solve L σ (.getrs 1 (lapackDense ⟨1, 1, fun _ _ => 1⟩)) false 1 0
          ⟨2, 1, fun r _ => if r = 0 then 1 else 0⟩ = .ok b1 := f1
      have g : (do
          let b ← Solver.solve L σ (.getrs 1 (lapackDense ⟨1, 1, fun _ _ => 1⟩)) false 1 0
            ⟨2, 1, fun r _ => if r = 0 then 1 else 0⟩
          let b ← spdm σ (⟨1, 1, []⟩ : Coo ℚ) 0 1 1 1 false b
          let b ← denseSolve L σ 1 A false 1 1 b
          spdm σ (dense2coo T) 1 1 0 1 false b) = .ok b' := e
      rw [g1, Res.ok_bind, f2, Res.ok_bind, f3, Res.ok_bind, f4] at g
      exact (Res.ok.inj g).symm
    have v1 : b1.val 0 0 = 1 := by
      have := solves_one.1 (s1 0 (by decide))
      simpa [LinProb.entry, lapackDense] using this
    have v3 : b3.val 1 0 = 0 := by
      have h1 := solves_one.1 (s3 0 (by rw [c2, c1]; decide))
      have h2 := s2 0 (by rw [c1]; decide) 0 (by decide)
      have h3 := o1 1 0 (Or.inr (by decide))
      simp only [Nat.add_zero] at h1 h2
      rw [h2, h3, hA0] at h1
      simp only [cooRow, List.map_nil, List.sum_nil, sub_zero] at h1
      rcases mul_eq_zero.1 h1 with h | h
      · norm_num at h
      · exact h
    have v4 : b4.val 1 0 = 0 := by rw [o4 1 0 (by omega), v3]
    have v4' : b4.val 0 0 = 1 := by
      have h1 := s4 0 (by rw [c3, c2, c1]; decide) 0 (by decide)
      simp only [Nat.add_zero, Nat.zero_add] at h1
      rw [h1, o3 0 0 (by omega), o2 0 0 (by omega), v1]
      have h2 : cooRow false (dense2coo T).entries 0 (fun k => b3.val (1 + k) 0) = 0 := by
        rw [cooRow]
        refine List.sum_eq_zero fun x hx => ?_
        obtain ⟨⟨i, k, v⟩, hm, rfl⟩ := List.mem_map.1 hx
        have := dense2coo_mem T _ hm
        rw [hT.rows, hT.cols] at this
        obtain rfl : k = 0 := by have := this.2; simp at this; exact this
        simp [v3]
      rw [h2, sub_zero]
    have h5 := s 0 (by decide) 1 (by decide)
    rw [e', Finset.sum_range_succ, Finset.sum_range_one] at h5
    simp only [Nat.zero_add, v4, v4', mul_zero, add_zero, mul_one, Bool.false_eq_true, if_false] at h5
    rw [shown_eq _ hsh (by decide) (by decide)] at h5
    have h6 : tinyProblem.entry 1 0 = 1 / 10 ^ 15 := rfl
    rw [h6] at h5
    norm_num at h5

end DDC
