import Verif.Spec.Linear
import Verif.Lemmas.Linear
import Verif.Lemmas.LapackExists
import Verif.Lemmas.Loop
import Mathlib.Algebra.Order.Ring.Rat

/-!
# C40: the sparse solver treats every right-hand side exactly once

The chunks of columns are consecutive, they cover all columns, none is larger than the buffers; every
column is solved and the result does not depend on the size of the chunks.  The iterative solver is
assumed to return solutions when it converges.
-/

namespace DDC

variable {K : Type} [Field K]

/-- The contract of the iterative solver, in exact arithmetic: when it converges, all columns are solved. -/
def Ginkgo.Sound (G : Ginkgo K) : Prop :=
  ∀ t n A w B X, G.apply t n A w B = some X →
    ∀ c, c < w → Solves t n A (fun k => X k c) (fun k => B k c)

theorem toNat_sub_one {a : U64} (h : 0 < a.toNat) : (a - 1).toNat = a.toNat - 1 := by
  rw [toNat_sub_le (by rw [toNat_one]; omega), toNat_one]

theorem mainChunk_toNat (cpc ncols : U64) : (mainChunk cpc ncols).toNat = min cpc.toNat ncols.toNat := by
  rw [mainChunk]
  simp only [BitVec.lt_def]
  split_ifs <;> omega

/-- The chunks. -/
theorem C40_chunks (cpc ncols : U64) (h1 : 0 < cpc.toNat) (h2 : 0 < ncols.toNat) (h3 : ncols.toNat < 2 ^ 63) :
    ∃ iend, chunkCount cpc ncols = .ok iend ∧ 0 < iend.toNat ∧
      (chunkRange cpc ncols iend 0).1 = 0 ∧
      (chunkRange cpc ncols iend (BitVec.ofNat 64 (iend.toNat - 1))).2 = ncols ∧
      ∀ i, i < iend.toNat →
        (chunkRange cpc ncols iend (BitVec.ofNat 64 i)).1.toNat < (chunkRange cpc ncols iend (BitVec.ofNat 64 i)).2.toNat ∧
        (chunkRange cpc ncols iend (BitVec.ofNat 64 i)).2.toNat ≤ ncols.toNat ∧
        (chunkRange cpc ncols iend (BitVec.ofNat 64 i)).2.toNat ≤
          (chunkRange cpc ncols iend (BitVec.ofNat 64 i)).1.toNat + min cpc.toNat ncols.toNat ∧
        (i + 1 < iend.toNat → (chunkRange cpc ncols iend (BitVec.ofNat 64 (i + 1))).1 =
          (chunkRange cpc ncols iend (BitVec.ofNat 64 i)).2) := by
  obtain ⟨m, hm⟩ : ∃ m, m = mainChunk cpc ncols := ⟨_, rfl⟩
  have em : m.toNat = min cpc.toNat ncols.toNat := by rw [hm, mainChunk_toNat]
  have hm0 : 0 < m.toNat := by omega
  have e1 : (ncols + m - 1).toNat = ncols.toNat + m.toNat - 1 := by
    rw [toNat_sub_one (by rw [toNat_add_lt (by omega)]; omega), toNat_add_lt (by omega)]
  obtain ⟨I, hI⟩ : ∃ I, I = (ncols + m - 1) / m := ⟨_, rfl⟩
  have eI : I.toNat = (ncols.toNat + m.toNat - 1) / m.toNat := by rw [hI, BitVec.toNat_udiv, e1]
  obtain ⟨N, hN⟩ : ∃ N, N = ncols.toNat := ⟨_, rfl⟩
  obtain ⟨M, hM⟩ : ∃ M, M = m.toNat := ⟨_, rfl⟩
  obtain ⟨J, hJ⟩ : ∃ J, J = I.toNat := ⟨_, rfl⟩
  rw [← hN, ← hM, ← hJ] at eI
  have b1 : J * M ≤ N + M - 1 := by rw [eI]; exact Nat.div_mul_le_self _ _
  have b2 : N + M - 1 < J * M + M := by
    have := Nat.lt_div_mul_add (a := N + M - 1) (b := M) (by omega)
    rwa [← eI] at this
  have hJ0 : 0 < J := by
    rcases Nat.eq_zero_or_pos J with h | h
    · rw [h] at b2; omega
    · exact h
  have bJ : J ≤ N := by
    have : J * 1 ≤ J * M := Nat.mul_le_mul_left _ (by omega)
    have h5 : N + M - 1 < (N + 1) * M := by
      have h6 : N * 1 ≤ N * M := Nat.mul_le_mul_left _ (by omega)
      rw [Nat.succ_mul]
      omega
    have := Nat.div_lt_of_lt_mul (m := N + M - 1) (n := M) (k := N + 1) (by rw [Nat.mul_comm]; exact h5)
    omega
  have lo : ∀ i, i < J → (chunkRange cpc ncols I (BitVec.ofNat 64 i)).1.toNat = i * M := by
    intro i hi
    have h4 : i * M + M ≤ J * M := by nlinarith
    simp only [chunkRange, ← hm]
    rw [BitVec.toNat_mul, BitVec.toNat_ofNat, Nat.mod_eq_of_lt (a := i) (by omega), ← hM, Nat.mod_eq_of_lt (by omega)]
  have last : ∀ i, i < J → (BitVec.ofNat 64 i + 1 = I ↔ i + 1 = J) := by
    intro i hi
    have e : (BitVec.ofNat 64 i + 1).toNat = i + 1 := by
      rw [toNat_add_lt (by rw [BitVec.toNat_ofNat, Nat.mod_eq_of_lt (by omega), toNat_one]; omega),
        BitVec.toNat_ofNat, Nat.mod_eq_of_lt (by omega), toNat_one]
    rw [← BitVec.toNat_inj, e, hJ]
  have hi' : ∀ i, i < J → (chunkRange cpc ncols I (BitVec.ofNat 64 i)).2.toNat = if i + 1 = J then N else (i + 1) * M := by
    intro i hi
    have h4 : i * M + M ≤ J * M := by nlinarith
    have h5 := lo i hi
    simp only [chunkRange, ← hm] at h5 ⊢
    simp only [last i hi]
    split_ifs with h
    · rw [hN]
    · rw [toNat_add_lt (by omega), h5, ← hM, Nat.succ_mul]
  refine ⟨I, ?_, by omega, ?_, ?_, ?_⟩
  · rw [chunkCount, ← hm, if_neg ?_, hI]
    intro h
    rw [h] at hm0
    simp at hm0
  · have := lo 0 (by omega)
    rw [Nat.zero_mul] at this
    exact BitVec.eq_of_toNat_eq this
  · refine BitVec.eq_of_toNat_eq ?_
    rw [← hJ, hi' (J - 1) (by omega), if_pos (by omega), hN]
  · intro i hi
    rw [← hJ] at hi
    rw [lo i hi, hi' i hi, ← em, ← hM, ← hN]
    have h4 : i * M + M ≤ J * M := by nlinarith
    refine ⟨?_, ?_, ?_, ?_⟩
    · split_ifs with h
      · have : J * M = i * M + M := by rw [← h, Nat.succ_mul]
        omega
      · rw [Nat.succ_mul]; omega
    · split_ifs with h
      · omega
      · have : (i + 1) * M + M ≤ J * M := by
          have : i + 1 + 1 ≤ J := by omega
          nlinarith
        omega
    · split_ifs with h
      · have : J * M = i * M + M := by rw [← h, Nat.succ_mul]
        omega
      · rw [Nat.succ_mul]
    · intro h
      rw [← hJ] at h
      refine BitVec.eq_of_toNat_eq ?_
      rw [lo _ h, hi' i hi, if_neg (by omega)]

/-- One chunk. -/
theorem sparseStep_ok {G : Ginkgo K} (hG : G.Sound) {t : Bool} {n : Nat} {A : Nat → Nat → K} {cpc iend : U64}
    {off i : Nat} {b : Mat K} (hr : off + n ≤ b.rows) {lo hi : U64}
    (hc : chunkRange cpc (BitVec.ofNat 64 b.cols) iend (BitVec.ofNat 64 i) = (lo, hi)) (h1 : lo.toNat < hi.toNat)
    (h2 : hi.toNat ≤ b.cols)
    (h3 : hi.toNat ≤ lo.toNat + (mainChunk cpc (BitVec.ofNat 64 b.cols)).toNat) :
    (G.apply t n A (hi.toNat - lo.toNat) (fun k c => b.val (off + k) (lo.toNat + c)) = none ∧
      sparseStep G t n A cpc iend off i b = .throw) ∨
    ∃ b', sparseStep G t n A cpc iend off i b = .ok b' ∧ b'.rows = b.rows ∧ b'.cols = b.cols ∧
      (∀ c, lo.toNat ≤ c → c < hi.toNat →
        Solves t n A (fun k => b'.val (off + k) c) (fun k => b.val (off + k) c)) ∧
      ∀ r c, (r < off ∨ off + n ≤ r ∨ c < lo.toNat ∨ hi.toNat ≤ c) → b'.val r c = b.val r c := by
  have ew : (hi - lo).toNat = hi.toNat - lo.toNat := toNat_sub_le (by omega)
  have hcond : lo ≤ hi ∧ hi.toNat ≤ b.cols ∧ (hi - lo).toNat ≤ (mainChunk cpc (BitVec.ofNat 64 b.cols)).toNat ∧
      off + n ≤ b.rows := ⟨by rw [BitVec.le_def]; omega, h2, by omega, hr⟩
  rw [sparseStep]
  simp only [hc]
  rw [if_pos hcond, ew]
  cases hx : G.apply t n A (hi.toNat - lo.toNat) (fun k c => b.val (off + k) (lo.toNat + c)) with
  | none => exact Or.inl ⟨rfl, rfl⟩
  | some X =>
    refine Or.inr ⟨_, rfl, rfl, rfl, ?_, ?_⟩
    · intro c hc1 hc2 k hk
      have h4 := hG _ _ _ _ _ _ hx (c - lo.toNat) (by omega) k hk
      simp only [Nat.add_sub_cancel' hc1] at h4
      dsimp only
      rw [← h4]
      refine Finset.sum_congr rfl fun j hj => ?_
      have := Finset.mem_range.1 hj
      congr 1
      rw [if_pos ⟨by omega, by omega, hc1, by omega⟩, Nat.add_sub_cancel_left]
    · intro r c hrc
      dsimp only
      rw [if_neg (by omega)]

/-- The invariant of the loop over the chunks. -/
theorem sparseLoop {G : Ginkgo K} (hG : G.Sound) {t : Bool} {n : Nat} {A : Nat → Nat → K} {cpc iend : U64} {off R C : Nat}
    {b0 : Mat K} (hr : off + n ≤ R) (lo hi : Nat → U64)
    (hc : ∀ i, i < iend.toNat → chunkRange cpc (BitVec.ofNat 64 C) iend (BitVec.ofNat 64 i) = (lo i, hi i) ∧
      (lo i).toNat < (hi i).toNat ∧ (hi i).toNat ≤ C ∧
      (hi i).toNat ≤ (lo i).toNat + (mainChunk cpc (BitVec.ofNat 64 C)).toNat ∧
      (i + 1 < iend.toNat → lo (i + 1) = hi i)) (m i : Nat) (him : i + m = iend.toNat) (b : Mat K)
    (hbr : b.rows = R) (hbc : b.cols = C) (p : Nat) (hp : 0 < m → p = (lo i).toNat)
    (hdone : ∀ c, c < p → Solves t n A (fun k => b.val (off + k) c) (fun k => b0.val (off + k) c))
    (hrest : ∀ r c, (r < off ∨ off + n ≤ r ∨ p ≤ c) → b.val r c = b0.val r c) :
    forLoop (sparseStep G t n A cpc iend off) i m b = .throw ∨
    ∃ b', forLoop (sparseStep G t n A cpc iend off) i m b = .ok b' ∧ b'.rows = R ∧ b'.cols = C ∧
      (∀ c, c < (if m = 0 then p else (hi (iend.toNat - 1)).toNat) →
        Solves t n A (fun k => b'.val (off + k) c) (fun k => b0.val (off + k) c)) ∧
      ∀ r c, (r < off ∨ off + n ≤ r) → b'.val r c = b0.val r c := by
  induction m generalizing i b p with
  | zero =>
    right
    refine ⟨b, rfl, hbr, hbc, ?_, fun r c h => hrest r c (by omega)⟩
    intro c hc
    rw [if_pos rfl] at hc
    exact hdone c hc
  | succ m ih =>
    obtain ⟨c1, c2, c3, c4, c5⟩ := hc i (by omega)
    obtain rfl := hp (by omega)
    subst hbc
    rcases sparseStep_ok hG (t := t) (n := n) (A := A) (off := off) (b := b) (by omega) c1 c2 c3 c4 with ⟨-, e⟩ | ⟨b1, e, r1, k1, s1, o1⟩
    · left
      simp only [forLoop, e]; rfl
    · have h1 : ∀ c, c < (hi i).toNat → Solves t n A (fun k => b1.val (off + k) c) (fun k => b0.val (off + k) c) := by
        intro c hc
        rcases Nat.lt_or_ge c (lo i).toNat with h | h
        · have e2 : (fun k => b1.val (off + k) c) = fun k => b.val (off + k) c :=
            funext fun k => o1 _ c (by omega)
          rw [e2]
          exact hdone c h
        · have e2 : (fun k => b.val (off + k) c) = fun k => b0.val (off + k) c :=
            funext fun k => hrest _ c (by omega)
          rw [← e2]
          exact s1 c h hc
      have h2 := ih (i + 1) (by omega) b1 (by omega) k1 (hi i).toNat (fun h => by rw [c5 (by omega)]) h1
        (fun r c h => by rw [o1 r c (by omega), hrest r c (by omega)])
      have e3 : forLoop (sparseStep G t n A cpc iend off) i (m + 1) b =
          forLoop (sparseStep G t n A cpc iend off) (i + 1) m b1 := by simp only [forLoop, e, Res.ok_bind]
      rw [e3]
      rcases h2 with h2 | ⟨b', e4, r4, k4, s4, o4⟩
      · exact Or.inl h2
      · refine Or.inr ⟨b', e4, r4, k4, fun c hc => s4 c ?_, o4⟩
        rw [if_neg (by omega)] at hc
        split_ifs with h
        · have : iend.toNat - 1 = i := by omega
          rw [← this]; exact hc
        · exact hc

/-- Every column is solved, unless the iterative solver does not converge; nothing else is written. -/
theorem C40_solve {G : Ginkgo K} (hG : G.Sound) (n : Nat) (A : Nat → Nat → K) (cpc : U64) (t : Bool) (off : Nat)
    (b : Mat K) (h1 : 0 < cpc.toNat) (h2 : 0 < b.cols) (h3 : b.cols < 2 ^ 63) (hr : off + n ≤ b.rows) :
    sparseSolve G n A cpc t n off b = .throw ∨
    ∃ b', sparseSolve G n A cpc t n off b = .ok b' ∧ b'.rows = b.rows ∧ b'.cols = b.cols ∧
      (∀ c, c < b.cols → Solves t n A (fun k => b'.val (off + k) c) (fun k => b.val (off + k) c)) ∧
      ∀ r c, (r < off ∨ off + n ≤ r) → b'.val r c = b.val r c := by
  have ec : (BitVec.ofNat 64 b.cols).toNat = b.cols := by
    rw [BitVec.toNat_ofNat, Nat.mod_eq_of_lt (by omega)]
  obtain ⟨I, e1, hI, l0, hl, hc⟩ := C40_chunks cpc (BitVec.ofNat 64 b.cols) h1 (by omega) (by omega)
  have e2 : sparseSolve G n A cpc t n off b = forLoop (sparseStep G t n A cpc I off) 0 I.toNat b := by
    rw [sparseSolve, decide_eq_true rfl, Res.guardAbort_true, Res.ok_bind, e1, Res.ok_bind]
  rw [e2]
  have h := sparseLoop hG (t := t) (n := n) (A := A) (cpc := cpc) (iend := I) (off := off) (R := b.rows) (C := b.cols)
    (b0 := b) hr (fun i => (chunkRange cpc (BitVec.ofNat 64 b.cols) I (BitVec.ofNat 64 i)).1)
    (fun i => (chunkRange cpc (BitVec.ofNat 64 b.cols) I (BitVec.ofNat 64 i)).2)
    (fun i hi => by
      obtain ⟨a1, a2, a3, a4⟩ := hc i hi
      rw [ec] at a2
      exact ⟨rfl, a1, a2, by rw [mainChunk_toNat]; exact a3, a4⟩)
    I.toNat 0 (by omega) b rfl rfl 0
    (fun _ => by
      have : (chunkRange cpc (BitVec.ofNat 64 b.cols) I 0).1.toNat = 0 := by rw [l0]; rfl
      exact this.symm) (fun c hc => absurd hc (by omega)) (fun r c _ => rfl)
  rcases h with h | ⟨b', e, r, k, s, o⟩
  · exact Or.inl h
  · refine Or.inr ⟨b', e, r, k, fun c hc => s c ?_, o⟩
    rw [if_neg (by omega)]
    rw [hl, ec]
    exact hc

/-- It succeeds when the iterative solver converges on chunks of at most `colsPerChunk` columns. -/
theorem C40_converges {G : Ginkgo K} (hG : G.Sound) (n : Nat) (A : Nat → Nat → K) (cpc : U64) (t : Bool) (off : Nat)
    (b : Mat K) (h1 : 0 < cpc.toNat) (h2 : 0 < b.cols) (h3 : b.cols < 2 ^ 63) (hr : off + n ≤ b.rows)
    (hconv : ∀ w B, 0 < w → w ≤ cpc.toNat → G.apply t n A w B ≠ none) :
    ∃ b', sparseSolve G n A cpc t n off b = .ok b' := by
  have ec : (BitVec.ofNat 64 b.cols).toNat = b.cols := by
    rw [BitVec.toNat_ofNat, Nat.mod_eq_of_lt (by omega)]
  obtain ⟨I, e1, hI, l0, hl, hc⟩ := C40_chunks cpc (BitVec.ofNat 64 b.cols) h1 (by omega) (by omega)
  have e2 : sparseSolve G n A cpc t n off b = forLoop (sparseStep G t n A cpc I off) 0 I.toNat b := by
    rw [sparseSolve, decide_eq_true rfl, Res.guardAbort_true, Res.ok_bind, e1, Res.ok_bind]
  rw [e2]
  obtain ⟨b', e, -⟩ := forLoop_inv (f := sparseStep G t n A cpc I off)
    (fun _ (x : Mat K) => x.rows = b.rows ∧ x.cols = b.cols) I.toNat 0 b ⟨rfl, rfl⟩ (fun i x _ hi hx => by
      obtain ⟨a1, a2, a3, -⟩ := hc i (by omega)
      rw [ec] at a2 a3
      rcases sparseStep_ok hG (t := t) (n := n) (A := A) (off := off) (b := x) (cpc := cpc) (iend := I) (i := i)
        (lo := (chunkRange cpc (BitVec.ofNat 64 b.cols) I (BitVec.ofNat 64 i)).1)
        (hi := (chunkRange cpc (BitVec.ofNat 64 b.cols) I (BitVec.ofNat 64 i)).2)
        (by omega) (by rw [hx.2]) a1 (by omega)
        (by rw [hx.2, mainChunk_toNat, ec]; exact a3) with ⟨e, -⟩ | ⟨b1, e, r1, k1, -⟩
      · exact absurd e (hconv _ _ (by omega) (by omega))
      · exact ⟨b1, e, by omega, by omega⟩)
  exact ⟨b', e⟩

/-- The result does not depend on the size of the chunks. -/
theorem C40_chunk_size {G : Ginkgo K} (hG : G.Sound) (n : Nat) (A : Nat → Nat → K) (hA : Regular n A)
    (cpc cpc' : U64) (off : Nat) (b x y : Mat K) (h1 : 0 < cpc.toNat) (h1' : 0 < cpc'.toNat) (h2 : 0 < b.cols)
    (h3 : b.cols < 2 ^ 63) (hr : off + n ≤ b.rows) (hx : sparseSolve G n A cpc false n off b = .ok x)
    (hy : sparseSolve G n A cpc' false n off b = .ok y) :
    ∀ r c, c < b.cols → x.val r c = y.val r c := by
  rcases C40_solve hG n A cpc false off b h1 h2 h3 hr with e | ⟨x', e, -, -, s, o⟩
  · rw [e] at hx; cases hx
  rw [e] at hx
  obtain rfl := Res.ok.inj hx
  rcases C40_solve hG n A cpc' false off b h1' h2 h3 hr with e' | ⟨y', e', -, -, s', o'⟩
  · rw [e'] at hy; cases hy
  rw [e'] at hy
  obtain rfl := Res.ok.inj hy
  intro r c hc
  by_cases h : r < off ∨ off + n ≤ r
  · rw [o r c h, o' r c h]
  · have h4 := hA (fun k => x'.val (off + k) c - y'.val (off + k) c) (fun i hi => by
      have h5 := s c hc i hi
      have h6 := s' c hc i hi
      simp only [Bool.false_eq_true, if_false] at h5 h6 ⊢
      simp only [mul_sub, Finset.sum_sub_distrib]
      rw [h5, h6, sub_self]) (r - off) (by omega)
    have h7 : off + (r - off) = r := by omega
    simp only [h7] at h4
    exact sub_eq_zero.1 h4

/-- No right-hand side, or chunks of no column: undefined behaviour (division by zero). -/
theorem C40_no_column (G : Ginkgo K) (n : Nat) (A : Nat → Nat → K) (cpc : U64) (t : Bool) (off : Nat) (b : Mat K)
    (h : b.cols = 0 ∨ cpc = 0) : sparseSolve G n A cpc t n off b = .ub := by
  have hm : mainChunk cpc (BitVec.ofNat 64 b.cols) = 0 := by
    refine BitVec.eq_of_toNat_eq ?_
    rw [mainChunk_toNat]
    rcases h with h | h
    · rw [h]; simp
    · rw [h]; simp
  rw [sparseSolve, decide_eq_true rfl, Res.guardAbort_true, Res.ok_bind, chunkCount, hm, if_pos rfl]
  rfl

/-- Any other number of rows is refused. -/
theorem C40_wrong_rows (G : Ginkgo K) (n : Nat) (A : Nat → Nat → K) (cpc : U64) (t : Bool) (len off : Nat) (b : Mat K)
    (h : len ≠ n) : sparseSolve G n A cpc t len off b = .abort := by
  rw [sparseSolve, decide_eq_false h]; rfl

/-! ## Cases -/

/-- Seven columns in chunks of three: `[0, 3)`, `[3, 6)`, `[6, 7)`. -/
example : chunkCount 3 7 = .ok 3 ∧ [0, 1, 2].map (chunkRange 3 7 3) = [(0, 3), (3, 6), (6, 7)] := by decide

open Classical in
/-- A solver that meets the contract and always converges on regular matrices. -/
noncomputable def exactGinkgo (K : Type) [Field K] : Ginkgo K where
  apply t n A w B := if h : ∀ c, ∃ x : Nat → K, c < w → Solves t n A x (fun k => B k c) then
    some fun k c => (h c).choose k else none

example : (exactGinkgo K).Sound := by
  intro t n A w B X hX c hc
  simp only [exactGinkgo] at hX
  split_ifs at hX with h
  obtain rfl := Option.some.inj hX
  exact (h c).choose_spec hc

example (t : Bool) (n : Nat) (A : Nat → Nat → K) (hA : Regular n A) (w : Nat) (B : Nat → Nat → K) :
    (exactGinkgo K).apply t n A w B ≠ none := by
  simp only [exactGinkgo]
  rw [dif_pos fun c => (hA.exists_solves t _).imp fun _ h _ => h]
  simp

end DDC
