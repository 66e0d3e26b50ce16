import Verif.Props.C39
import Mathlib.Tactic.Linarith
import Mathlib.Tactic.Positivity
import Mathlib.Algebra.Order.BigOperators.Group.Finset
import Mathlib.Algebra.Order.BigOperators.Ring.Finset

/-!
# C39, continued: what the block solvers solve when small entries are dropped

`dense2coo` drops the entries below `1e-14` of `λ` and of `Q⁻¹ γ`.  The solver then solves, exactly and for
all right-hand sides, direct or transposed, the systems of one nearby matrix.
-/

set_option linter.unusedSectionVars false

namespace DDC

open LinProb

variable {K : Type} [Field K] [LinearOrder K] [IsStrictOrderedRing K]

/-- Not a block matrix. -/
def LinProb.Direct : LinProb K → Prop
  | blocks2 .. => False
  | blocks3 .. => False
  | _ => True

/-- The main block of a block matrix is not itself a block matrix. -/
def LinProb.Flat : LinProb K → Prop
  | blocks2 _ tl _ _ _ _ => tl.Direct
  | blocks3 _ _ tl _ _ _ _ => tl.Direct
  | _ => True

/-- `τ` bounds the sums of the absolute values of the columns of `Q⁻¹ γ`, for a main block `Q` that is
not itself a block matrix. -/
def LinProb.Coupling (p : LinProb K) (τ : K) : Prop :=
  0 ≤ τ ∧ match p with
  | blocks2 _ tl tr _ brn _ => tl.Direct ∧ ∀ X : Nat → Nat → K, (∀ c, c < brn.toNat →
      Solves false tl.size.toNat tl.shown (fun k => X k c) (fun i => tr.val i c)) →
      ∀ c, c < brn.toNat → ∑ l ∈ Finset.range tl.size.toNat, |X l c| ≤ τ
  | blocks3 _ _ tl tr _ brn _ => tl.Direct ∧ ∀ X : Nat → Nat → K, (∀ c, c < brn.toNat →
      Solves false tl.size.toNat tl.shown (fun k => X k c) (fun i => tr.val i c)) →
      ∀ c, c < brn.toNat → ∑ l ∈ Finset.range tl.size.toNat, |X l c| ≤ τ
  | _ => True

/-- The matrix whose entries are in the coordinate format. -/
def trim (a : Mat K) : Mat K := ⟨a.rows, a.cols, fun i j => if cooTol ≤ |a.val i j| then a.val i j else 0⟩

theorem cooTol_pos : (0 : K) < cooTol := by rw [cooTol]; positivity

theorem dense2coo_trim (a : Mat K) : dense2coo (trim a) = dense2coo a := by
  rw [dense2coo, dense2coo]
  simp only [trim]
  congr 1
  congr 1
  funext i
  congr 1
  funext j
  by_cases h : cooTol ≤ |a.val i j|
  · simp only [h, if_true]
  · simp only [h, if_false, abs_zero, cooTol_pos.not_ge]

theorem trim_noTiny (a : Mat K) (m n : Nat) : NoTiny m n (trim a).val := by
  intro i j _ _
  simp only [trim]
  split_ifs with h
  · exact Or.inr h
  · exact Or.inl rfl

theorem trim_near (a : Mat K) (i j : Nat) : |a.val i j - (trim a).val i j| ≤ cooTol := by
  simp only [trim]
  split_ifs with h
  · rw [sub_self, abs_zero]; exact cooTol_pos.le
  · rw [sub_zero]; exact (not_le.1 h).le

theorem trim_le (a : Mat K) (i j : Nat) : |(trim a).val i j| ≤ |a.val i j| := by
  simp only [trim]
  split_ifs with h
  · exact le_rfl
  · rw [abs_zero]; exact abs_nonneg _

/-- The solver of the 2x2 blocks solves the systems of a nearby block matrix. -/
theorem solve2_near {L : Lapack K} (hL : L.Exact) {nq m : Nat} {S : Solver K}
    {E A : Nat → Nat → K} (hS : SolvesSystem L S nq 0 E) {tr bl br T : Mat K} (hT : Setup2 L E nq m tr bl br T A)
    (hbr : bl.rows = m) (hbc : bl.cols = nq) (hA : Regular m A) :
    ∃ tr' br' : Mat K,
      (∀ (σ : Sched), σ.Valid → ∀ (t : Bool) (off : Nat) (b : Mat K), off + (nq + m) ≤ b.rows →
        ∃ b', solve2 L σ (nq + m) nq (S.solve L σ) (dense2coo T) (dense2coo bl) m A t (nq + m) off b = .ok b' ∧
        b'.rows = b.rows ∧ b'.cols = b.cols ∧
        (∀ c, c < b.cols → Solves t (nq + m) (entry2 nq E tr' (trim bl) br') (fun j => b'.val (off + j) c)
          (fun i => b.val (off + i) c)) ∧
        ∀ r c, r < off ∨ off + (nq + m) ≤ r → b'.val r c = b.val r c) ∧
      (∀ i c, i < nq → c < m → |tr'.val i c - tr.val i c| ≤ cooTol * ∑ l ∈ Finset.range nq, |E i l|) ∧
      (∀ i c, i < m → c < m → |br'.val i c - br.val i c| ≤
        cooTol * (∑ l ∈ Finset.range nq, |bl.val i l| + ∑ l ∈ Finset.range nq, |T.val l c|)) := by
  refine ⟨⟨nq, m, fun i c => ∑ l ∈ Finset.range nq, E i l * (trim T).val l c⟩,
    ⟨m, m, fun i c => A i c + ∑ l ∈ Finset.range nq, (trim bl).val i l * (trim T).val l c⟩, ?_, ?_, ?_⟩
  · intro σ hσ t off b h
    have := solve2_ok hL hσ hS (T := trim T) (bl := trim bl)
      (tr := ⟨nq, m, fun i c => ∑ l ∈ Finset.range nq, E i l * (trim T).val l c⟩)
      (br := ⟨m, m, fun i c => A i c + ∑ l ∈ Finset.range nq, (trim bl).val i l * (trim T).val l c⟩)
      (fun c _ i _ => by simp) hT.rows hT.cols (trim_noTiny _ _ _) hbr hbc (trim_noTiny _ _ _) hA
      (fun i j _ _ => by simp) t off b h
    rw [dense2coo_trim, dense2coo_trim] at this
    exact this
  · intro i c hi hc
    have h1 := hT.solves c hc i hi
    simp only [Bool.false_eq_true, if_false] at h1
    dsimp only
    rw [← h1, ← Finset.sum_sub_distrib, Finset.mul_sum]
    refine (Finset.abs_sum_le_sum_abs _ _).trans (Finset.sum_le_sum fun l _ => ?_)
    rw [← mul_sub, abs_mul, abs_sub_comm, mul_comm]
    exact mul_le_mul_of_nonneg_right (trim_near T l c) (abs_nonneg _)
  · intro i c hi hc
    dsimp only
    rw [hT.eq i c hi hc]
    have e : br.val i c - ∑ l ∈ Finset.range nq, bl.val i l * T.val l c +
        ∑ l ∈ Finset.range nq, (trim bl).val i l * (trim T).val l c - br.val i c =
        ∑ l ∈ Finset.range nq, (bl.val i l * ((trim T).val l c - T.val l c) +
          ((trim bl).val i l - bl.val i l) * (trim T).val l c) := by
      have : ∀ a b d : K, a - b + d - a = d - b := fun a b d => by ring
      rw [this, ← Finset.sum_sub_distrib]
      exact Finset.sum_congr rfl fun l _ => by ring
    rw [e, mul_add, Finset.mul_sum, Finset.mul_sum, ← Finset.sum_add_distrib]
    refine (Finset.abs_sum_le_sum_abs _ _).trans (Finset.sum_le_sum fun l _ => ?_)
    refine (abs_add_le _ _).trans (add_le_add ?_ ?_)
    · rw [abs_mul, abs_sub_comm, mul_comm]
      exact mul_le_mul_of_nonneg_right (trim_near T l c) (abs_nonneg _)
    · rw [abs_mul, abs_sub_comm]
      exact mul_le_mul (trim_near bl i l) (trim_le T l c) (abs_nonneg _) cooTol_pos.le

/-- The entries of the two block matrices are close. -/
theorem entry2_near {nq m : Nat} {E : Nat → Nat → K} {tr bl br tr' br' T : Mat K} {τ : K} (hτ : 0 ≤ τ)
    (h1 : ∀ i c, i < nq → c < m → |tr'.val i c - tr.val i c| ≤ cooTol * ∑ l ∈ Finset.range nq, |E i l|)
    (h2 : ∀ i c, i < m → c < m → |br'.val i c - br.val i c| ≤
        cooTol * (∑ l ∈ Finset.range nq, |bl.val i l| + ∑ l ∈ Finset.range nq, |T.val l c|))
    (h3 : ∀ c, c < m → ∑ l ∈ Finset.range nq, |T.val l c| ≤ τ) (i j : Nat) (hi : i < nq + m) (hj : j < nq + m) :
    |entry2 nq E tr' (trim bl) br' i j - entry2 nq E tr bl br i j| ≤
      cooTol * (1 + ∑ l ∈ Finset.range (nq + m), |entry2 nq E tr bl br i l| + τ) := by
  have hs : ∑ l ∈ Finset.range nq, |entry2 nq E tr bl br i l| ≤
      ∑ l ∈ Finset.range (nq + m), |entry2 nq E tr bl br i l| :=
    Finset.sum_le_sum_of_subset_of_nonneg (Finset.range_mono (by omega)) fun _ _ _ => abs_nonneg _
  have hs0 : 0 ≤ ∑ l ∈ Finset.range nq, |entry2 nq E tr bl br i l| := Finset.sum_nonneg fun _ _ => abs_nonneg _
  have hc := cooTol_pos (K := K)
  rcases Nat.lt_or_ge i nq with hi' | hi'
  · rcases Nat.lt_or_ge j nq with hj' | hj'
    · rw [entry2, entry2, if_pos ⟨hi', hj'⟩, if_pos ⟨hi', hj'⟩, sub_self, abs_zero]
      exact mul_nonneg hc.le (by linarith)
    · obtain ⟨c, rfl⟩ := Nat.exists_eq_add_of_le hj'
      rw [entry2_tr hi', entry2_tr hi']
      refine (h1 i c hi' (by omega)).trans (mul_le_mul_of_nonneg_left ?_ hc.le)
      have e : ∑ l ∈ Finset.range nq, |E i l| = ∑ l ∈ Finset.range nq, |entry2 nq E tr bl br i l| :=
        Finset.sum_congr rfl fun l hl => by rw [entry2, if_pos ⟨hi', Finset.mem_range.1 hl⟩]
      rw [e]
      linarith
  · obtain ⟨r, rfl⟩ := Nat.exists_eq_add_of_le hi'
    rcases Nat.lt_or_ge j nq with hj' | hj'
    · rw [entry2_bl hj', entry2_bl hj', abs_sub_comm]
      refine (trim_near bl r j).trans ?_
      have : (1 : K) ≤ 1 + ∑ l ∈ Finset.range (nq + m), |entry2 nq E tr bl br (nq + r) l| + τ := by linarith
      calc cooTol = cooTol * 1 := (mul_one _).symm
        _ ≤ _ := mul_le_mul_of_nonneg_left this hc.le
    · obtain ⟨c, rfl⟩ := Nat.exists_eq_add_of_le hj'
      rw [entry2_br, entry2_br]
      refine (h2 r c (by omega) (by omega)).trans (mul_le_mul_of_nonneg_left ?_ hc.le)
      have e : ∑ l ∈ Finset.range nq, |bl.val r l| = ∑ l ∈ Finset.range nq, |entry2 nq E tr bl br (nq + r) l| :=
        Finset.sum_congr rfl fun l hl => by rw [entry2_bl (Finset.mem_range.1 hl)]
      rw [e]
      have := h3 c (by omega)
      linarith

theorem direct_clean {p : LinProb K} (h : p.Direct) : p.Clean := by
  cases p <;> first | trivial | exact h.elim

/-- Without any condition on small entries: the solver solves all the systems, direct or transposed, of one
matrix whose entries differ from those of the matrix that was set by less than `1e-14` times
`1 + (sum of the row) + (bound for the columns of Q⁻¹ γ)`. -/
theorem C39_nearby {L : Lapack K} (hL : L.Exact) {σ : Sched} (hσ : σ.Valid) (p : LinProb K) (h : p.Shaped)
    (h0 : 0 < p.size.toNat) {τ : K} (hc : p.Coupling τ) (S : Solver K) (hS : p.setup L σ = .ok S) :
    ∃ M : Nat → Nat → K, SolvesSystem L S p.size.toNat p.extra M ∧
      ∀ i j, i < p.size.toNat → j < p.size.toNat → |M i j - p.shown i j| ≤
        1 / 10 ^ 14 * (1 + ∑ l ∈ Finset.range p.size.toNat, |p.shown i l| + τ) := by
  have direct : p.Direct → ∃ M : Nat → Nat → K, SolvesSystem L S p.size.toNat p.extra M ∧
      ∀ i j, i < p.size.toNat → j < p.size.toNat → |M i j - p.shown i j| ≤
        1 / 10 ^ 14 * (1 + ∑ l ∈ Finset.range p.size.toNat, |p.shown i l| + τ) := by
    intro hd
    refine ⟨p.shown, C39_solves_partial hL hσ p h h0 (direct_clean hd) S hS, fun i j _ _ => ?_⟩
    rw [sub_self, abs_zero]
    have := hc.1
    have : 0 ≤ ∑ l ∈ Finset.range p.size.toNat, |p.shown i l| := Finset.sum_nonneg fun _ _ => abs_nonneg _
    positivity
  have hsum : ∀ i, i < p.size.toNat →
      ∑ l ∈ Finset.range p.size.toNat, |p.shown i l| = ∑ l ∈ Finset.range p.size.toNat, |p.entry i l| :=
    fun i hi => Finset.sum_congr rfl fun l hl => by rw [shown_eq p h hi (Finset.mem_range.1 hl)]
  suffices hs : ∃ M : Nat → Nat → K, SolvesSystem L S p.size.toNat p.extra M ∧
      ∀ i j, i < p.size.toNat → j < p.size.toNat → |M i j - p.entry i j| ≤
        1 / 10 ^ 14 * (1 + ∑ l ∈ Finset.range p.size.toNat, |p.entry i l| + τ) by
    obtain ⟨M, m1, m2⟩ := hs
    exact ⟨M, m1, fun i j hi hj => by rw [shown_eq p h hi hj, hsum i hi]; exact m2 i j hi hj⟩
  have undirect : p.Direct → ∃ M : Nat → Nat → K, SolvesSystem L S p.size.toNat p.extra M ∧
      ∀ i j, i < p.size.toNat → j < p.size.toNat → |M i j - p.entry i j| ≤
        1 / 10 ^ 14 * (1 + ∑ l ∈ Finset.range p.size.toNat, |p.entry i l| + τ) := by
    intro hd
    obtain ⟨M, m1, m2⟩ := direct hd
    exact ⟨M, m1, fun i j hi hj => by rw [← shown_eq p h hi hj, ← hsum i hi]; exact m2 i j hi hj⟩
  clear hsum direct
  cases p with
  | dense n a => exact undirect trivial
  | band n kl ku q => exact undirect trivial
  | pdsBand n ext q => exact undirect trivial
  | pdsTridiag n q => exact undirect trivial
  | blocks2 n tl tr bl brn br =>
    clear undirect
    obtain ⟨hτ, hd, hc⟩ := hc
    obtain ⟨hn, ht, hs, h1, h2, h3, h4, h5, h6⟩ := h
    obtain ⟨S1, e1, hS⟩ := Res.bind_eq_ok.1 hS
    obtain ⟨⟨t, b, A⟩, e2, hS⟩ := Res.bind_eq_ok.1 hS
    obtain rfl := Res.ok.inj hS
    have htl := setup_correct.tl_ok h1 e1 e2
    have hS1 := setup_correct hL hσ tl ht (direct_clean hd) htl.1 S1 e1
    rw [htl.2] at hS1
    obtain ⟨T, A', hT, ⟨hA, e3⟩ | ⟨-, e3⟩⟩ := setup2_eq hL hσ hS1 h1 h2 h3 h4 h5 h6
    · rw [e2] at e3
      obtain ⟨rfl, e4⟩ := Prod.mk.inj (Res.ok.inj e3)
      obtain ⟨rfl, rfl⟩ := Prod.mk.inj e4
      obtain ⟨tr', br', n1, n2, n3⟩ := solve2_near hL hS1 hT h3 h4 hA
      refine ⟨entry2 tl.size.toNat tl.entry tr' (trim bl) br', ?_, ?_⟩
      · intro σ' hσ' t off b hb
        simp only [size, extra, Nat.add_zero, ← hs] at hb ⊢
        simp only [Solver.solve, setup_size e1]
        exact n1 σ' hσ' t off b hb
      · intro i j hi hj
        simp only [size, ← hs] at hi hj ⊢
        exact entry2_near hτ n2 n3 (hc T.val fun c hc => (shown_solves ht).2 (hT.solves c hc)) i j hi hj
    · rw [e2] at e3; cases e3
  | blocks3 n top tl tr bl brn br =>
    clear undirect
    obtain ⟨hτ, hd, hc⟩ := hc
    obtain ⟨hn, ht, hs, h1, h2, h3, h4, h5, h6, h7⟩ := h
    obtain ⟨S1, e1, hS⟩ := Res.bind_eq_ok.1 hS
    obtain ⟨⟨t, b, A⟩, e2, hS⟩ := Res.bind_eq_ok.1 hS
    obtain rfl := Res.ok.inj hS
    have htl := setup_correct.tl_ok h1 e1 e2
    have hS1 := setup_correct hL hσ tl ht (direct_clean hd) htl.1 S1 e1
    rw [htl.2] at hS1
    obtain ⟨T, A', hT, ⟨hA, e3⟩ | ⟨-, e3⟩⟩ := setup2_eq hL hσ hS1 h1 h2 h3 h4 h5 h6
    · rw [e2] at e3
      obtain ⟨rfl, e4⟩ := Prod.mk.inj (Res.ok.inj e3)
      obtain ⟨rfl, rfl⟩ := Prod.mk.inj e4
      obtain ⟨tr', br', n1, n2, n3⟩ := solve2_near hL hS1 hT h3 h4 hA
      have hp : ∀ i, i < n.toNat → pos3 top.toNat tl.size.toNat i < tl.size.toNat + brn.toNat := by
        intro i hi; rw [pos3]; split_ifs <;> omega
      refine ⟨fun i j => entry2 tl.size.toNat tl.entry tr' (trim bl) br' (pos3 top.toNat tl.size.toNat i)
        (pos3 top.toNat tl.size.toNat j), ?_, ?_⟩
      · intro σ' hσ' t off b hb
        simp only [size, extra] at hb ⊢
        obtain ⟨b1, f1, r1, c1, s1, o1⟩ := interchange3to2_ok (top := top.toNat) (nq := tl.size.toNat) (n := n.toNat)
          (off := off) (by omega) b hb
        obtain ⟨b2, f2, r2, c2, s2, o2⟩ := n1 σ' hσ' t (off + top.toNat) b1 (by omega)
        obtain ⟨b3, f3, r3, c3, s3, o3⟩ := interchange2to3_ok (top := top.toNat) (nq := tl.size.toNat) (n := n.toNat)
          (off := off) (by omega) b2 (by omega)
        refine ⟨b3, ?_, by omega, by omega, ?_, ?_⟩
        · simp only [Solver.solve, setup_size e1, decide_true, Res.guardAbort_true, Res.pure_eq, Res.ok_bind]
          rw [f1, Res.ok_bind, ← hs, f2, Res.ok_bind, hs, f3]
        · intro c hc i hi
          have h8 := s2 c (by omega) _ (hp i hi)
          simp only at h8
          rw [s1 c i hi] at h8
          dsimp only
          rw [← h8, hs]
          refine Eq.trans ?_ (sum_pos3 (top := top.toNat) (nq := tl.size.toNat) (n := n.toNat) (by omega) _)
          refine Finset.sum_congr rfl fun j hj => ?_
          rw [s3 c j (Finset.mem_range.1 hj)]
          rfl
        · intro r c hr
          rw [o3 r c hr, o2 r c (by omega), o1 r c hr]
      · intro i j hi hj
        simp only [size] at hi hj ⊢
        have := entry2_near (E := tl.entry) (tr := tr) (br := br) hτ n2 n3
          (hc T.val fun c hc => (shown_solves ht).2 (hT.solves c hc)) _ _ (hp i hi) (hp j hj)
        rw [hs] at this
        simp only [entry]
        rw [sum_pos3 (top := top.toNat) (nq := tl.size.toNat) (n := n.toNat) (by omega)
          (fun l => |entry2 tl.size.toNat tl.entry tr bl br (pos3 top.toNat tl.size.toNat i) l|)]
        exact this
    · rw [e2] at e3; cases e3

/-- Such a bound exists as soon as the set-up succeeds. -/
theorem C39_coupling_exists {L : Lapack K} (hL : L.Exact) {σ : Sched} (hσ : σ.Valid) (p : LinProb K) (h : p.Shaped)
    (hd : p.Flat)
    (S : Solver K) (hS : p.setup L σ = .ok S) : ∃ τ, p.Coupling τ := by
  have key : ∀ (tl : LinProb K) (tr : Mat K) (m : Nat), Regular tl.size.toNat tl.shown →
      ∃ τ : K, 0 ≤ τ ∧ ∀ X : Nat → Nat → K, (∀ c, c < m →
        Solves false tl.size.toNat tl.shown (fun k => X k c) (fun i => tr.val i c)) →
        ∀ c, c < m → ∑ l ∈ Finset.range tl.size.toNat, |X l c| ≤ τ := by
    intro tl tr m hr
    by_cases hX : ∃ X : Nat → Nat → K, ∀ c, c < m →
        Solves false tl.size.toNat tl.shown (fun k => X k c) (fun i => tr.val i c)
    · obtain ⟨X, hX⟩ := hX
      refine ⟨∑ c ∈ Finset.range m, ∑ l ∈ Finset.range tl.size.toNat, |X l c|,
        Finset.sum_nonneg fun _ _ => Finset.sum_nonneg fun _ _ => abs_nonneg _, fun Y hY c hc => ?_⟩
      have e : ∀ l, l < tl.size.toNat → Y l c = X l c := by
        intro l hl
        refine sub_eq_zero.1 (hr (fun l => Y l c - X l c) (fun i hi => ?_) l hl)
        have a1 := hX c hc i hi
        have a2 := hY c hc i hi
        simp only [Bool.false_eq_true, if_false] at a1 a2 ⊢
        simp only [mul_sub, Finset.sum_sub_distrib, a1, a2, sub_self]
      rw [Finset.sum_congr rfl fun l hl => by rw [e l (Finset.mem_range.1 hl)]]
      exact Finset.single_le_sum (f := fun c => ∑ l ∈ Finset.range tl.size.toNat, |X l c|)
        (fun _ _ => Finset.sum_nonneg fun _ _ => abs_nonneg _) (Finset.mem_range.2 hc)
    · exact ⟨0, le_rfl, fun X h => absurd ⟨X, h⟩ hX⟩
  cases p with
  | dense n a => exact ⟨0, le_rfl, trivial⟩
  | band n kl ku q => exact ⟨0, le_rfl, trivial⟩
  | pdsBand n ext q => exact ⟨0, le_rfl, trivial⟩
  | pdsTridiag n q => exact ⟨0, le_rfl, trivial⟩
  | blocks2 n tl tr bl brn br =>
    obtain ⟨hn, ht, -⟩ := h
    obtain ⟨S1, e1, -⟩ := Res.bind_eq_ok.1 hS
    obtain ⟨τ, a, b⟩ := key tl tr brn.toNat ((regular_shown ht).2 (setup_regular hL hσ tl ht (direct_clean hd) S1 e1))
    exact ⟨τ, a, hd, b⟩
  | blocks3 n top tl tr bl brn br =>
    obtain ⟨hn, ht, -⟩ := h
    obtain ⟨S1, e1, -⟩ := Res.bind_eq_ok.1 hS
    obtain ⟨τ, a, b⟩ := key tl tr brn.toNat ((regular_shown ht).2 (setup_regular hL hσ tl ht (direct_clean hd) S1 e1))
    exact ⟨τ, a, hd, b⟩

/-- The matrix of `C39_tiny_entries`, which is not clean, with `τ = 1`. -/
example : tinyProblem.Shaped ∧ tinyProblem.Flat ∧ ¬tinyProblem.Clean ∧ tinyProblem.Coupling 1 := by
  have e : (LinProb.dense 1 ⟨1, 1, fun _ _ => 1⟩ : LinProb ℚ).shown 0 0 = 1 := by decide +kernel
  refine ⟨by simp only [tinyProblem, Shaped]; decide, trivial, fun h => ?_, zero_le_one, trivial, fun X hX c hc => ?_⟩
  · rcases h.2.1 0 0 (by decide) (by decide) with h | h
    · norm_num at h
    · norm_num [abs_of_pos] at h
  · have h := hX c hc 0 (by decide)
    simp only [size, show (1 : U64).toNat = 1 from rfl, Finset.sum_range_one, Bool.false_eq_true, if_false, e,
      one_mul] at h ⊢
    rw [h, abs_one]

end DDC
