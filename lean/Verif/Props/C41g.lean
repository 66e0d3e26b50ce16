import Verif.Props.C41f
import Verif.Lemmas.SplineEnds

/-!
# C41, continued: non-uniform B-splines

The Greville points of non-uniform B-splines satisfy the conditions of Schoenberg and Whitney: the constructor
always succeeds on a bounded interval (`C41_nonUniform_partial`).
-/

set_option linter.unusedSectionVars false

namespace DDC.Props

open One Dom LinProb Spec Builder NUBS

variable {K : Type} [Field K] [LinearOrder K] [IsStrictOrderedRing K]

/-! ## Main blocks without symmetry -/

/-- A matrix without symmetry. -/
def _root_.DDC.LinProb.General : LinProb K → Prop
  | .dense .. => True
  | .band .. => True
  | _ => False

/-- The main block is stored without symmetry. -/
def _root_.DDC.LinProb.GeneralMain : LinProb K → Prop
  | .blocks2 _ tl _ _ _ _ => tl.General
  | .blocks3 _ _ tl _ _ _ _ => tl.General
  | _ => True

theorem general_direct {m : LinProb K} (h : m.General) : m.Direct := by
  cases m <;> first | trivial | exact h.elim

theorem general_set {m m' : LinProb K} (h : m.General) {i j : U64} {v : K} (e : m.set i j v = .ok m') : m'.General := by
  cases m with
  | dense =>
    obtain ⟨a, -, e⟩ := Res.bind_eq_ok.1 e
    obtain rfl := Res.ok.inj e
    trivial
  | band =>
    obtain ⟨a, -, e⟩ := Res.bind_eq_ok.1 e
    obtain rfl := Res.ok.inj e
    trivial
  | _ => exact h.elim

theorem generalMain_set {m m' : LinProb K} (h : m.GeneralMain) {i j : U64} {v : K} (e : m.set i j v = .ok m') :
    m'.GeneralMain := by
  cases m with
  | blocks2 =>
    obtain ⟨tl', tr', bl', br', rfl, rfl | e'⟩ := set2_inv e
    · exact h
    · exact general_set h e'
  | blocks3 =>
    obtain ⟨tl', tr', bl', br', rfl, rfl | e'⟩ := set2_inv e
    · exact h
    · exact general_set h e'
  | _ =>
    obtain ⟨a, -, e⟩ := Res.bind_eq_ok.1 e
    obtain rfl := Res.ok.inj e
    trivial

theorem generalMain_writeAll (ws : List (U64 × U64 × K)) {m m' : LinProb K} (h : m.GeneralMain)
    (e : writeAll m ws = .ok m') : m'.GeneralMain := by
  induction ws generalizing m with
  | nil => exact Res.ok.inj e ▸ h
  | cons w ws ih =>
    obtain ⟨m1, e1, e⟩ := Res.bind_eq_ok.1 (show (LinProb.set m w.1 w.2.1 w.2.2 >>= fun m => writeAll m ws) = _
      by rw [← e, writeAll, List.foldlM_cons]; rfl)
    exact ih (generalMain_set h e1) e

theorem general_makeBand {k kl ku : Int} {m : LinProb K} (e : makeBand k kl ku false = .ok m) : m.General := by
  rw [makeBand, if_neg (by simp), if_neg (by simp)] at e
  obtain ⟨a, -, e⟩ := Res.bind_eq_ok.1 e
  obtain ⟨a, -, e⟩ := Res.bind_eq_ok.1 e
  obtain ⟨a, -, e⟩ := Res.bind_eq_ok.1 e
  split_ifs at e
  · exact Res.ok.inj e ▸ trivial
  · rw [mkBand] at e
    simp only [Res.bind_eq_ok] at e
    grind [LinProb.General]

theorem general_makeBlocks {k kl ku bottom top : Int} {m : LinProb K}
    (e : makeBlocks k kl ku false bottom top = .ok m) : m.GeneralMain := by
  rw [makeBlocks] at e
  obtain ⟨a, -, e⟩ := Res.bind_eq_ok.1 e
  obtain ⟨a, -, e⟩ := Res.bind_eq_ok.1 e
  obtain ⟨main, em, e⟩ := Res.bind_eq_ok.1 e
  split_ifs at e
  · obtain ⟨a, -, e⟩ := Res.bind_eq_ok.1 e
    exact Res.ok.inj e ▸ general_makeBand em
  · obtain ⟨a, -, e⟩ := Res.bind_eq_ok.1 e
    exact Res.ok.inj e ▸ general_makeBand em

/-- The set-up succeeds exactly for the regular matrices, when the main block is regular and stored without
symmetry. -/
theorem general_setup {L : Lapack K} (hL : L.Exact) {σ : Sched} (hσ : σ.Valid) {m : LinProb K} (hm : m.GeneralMain)
    (h : m.Shaped) {lo sz : Nat} (hb : m.mainBlock = some (lo, sz)) (h0 : 0 < sz)
    (hp : Regular sz fun i j => m.shown (lo + i) (lo + j)) :
    (Regular m.size.toNat m.shown → ∃ S, m.setup L σ = .ok S) ∧ (¬Regular m.size.toNat m.shown → m.setup L σ = .throw) := by
  have key : ∀ tl : LinProb K, tl.Shaped → tl.General → tl.size.toNat = sz →
      (∀ i j, i < sz → j < sz → m.shown (lo + i) (lo + j) = tl.entry i j) → ∃ S, tl.setup L σ = .ok S := by
    intro tl h1 h2 h3 h4
    have hr : Regular tl.size.toNat tl.shown := by
      rw [regular_shown h1, h3]
      exact (Regular.congr h4).1 hp
    have h5 := C39_setup_direct hL σ tl h1
    cases tl with
    | dense => exact h5.1 hr
    | band => exact h5.1 hr
    | _ => exact h2.elim
  cases m with
  | blocks2 n tl tr bl brn br =>
    obtain ⟨rfl, rfl⟩ := Prod.mk.inj (Option.some.inj hb)
    obtain ⟨S1, e1⟩ := key tl h.2.1 hm rfl (fun i j hi hj => by
      have hs := h.2.2.1
      rw [shown_eq _ h (by simp only [LinProb.size]; omega) (by simp only [LinProb.size]; omega)]
      simp only [entry, Nat.zero_add, entry2]
      rw [if_pos ⟨hi, hj⟩])
    have hd := direct_clean (general_direct hm)
    exact C39_setup_blocks hL hσ _ tl h (.inl ⟨n, tr, bl, brn, br, rfl⟩) hd.1 h0 hd.2 S1 e1
  | blocks3 n top tl tr bl brn br =>
    obtain ⟨rfl, rfl⟩ := Prod.mk.inj (Option.some.inj hb)
    obtain ⟨S1, e1⟩ := key tl h.2.1 hm rfl (fun i j hi hj => by
      have hs := h.2.2.1
      have ht := h.2.2.2.2.2.2.2.2.2
      rw [shown_eq _ h (by simp only [LinProb.size]; omega) (by simp only [LinProb.size]; omega)]
      have hpos : ∀ i, i < tl.size.toNat → pos3 top.toNat tl.size.toNat (top.toNat + i) = i := by
        intro i hi
        rw [pos3]
        split_ifs <;> omega
      simp only [entry, entry2, hpos i hi, hpos j hj]
      rw [if_pos ⟨hi, hj⟩])
    have hd := direct_clean (general_direct hm)
    exact C39_setup_blocks hL hσ _ tl h (.inr ⟨n, top, tr, bl, brn, br, rfl⟩) hd.1 h0 hd.2 S1 e1
  | _ => cases hb

/-! ## Clamped knots -/

variable [FloorRing K] {bs : BSpl K} {p n : Nat} {t : Nat → K}

/-- The main block, with clamped knots. -/
theorem clamped_block (h : bs.Is false p n t) (hst : ∀ c, p ≤ c → c < p + n → t c < t (c + 1))
    (hlow : ∀ i, i ≤ p → t i = t p) (hupp : ∀ i, p + n ≤ i → i < p + n + p → t i = t (p + n)) {lo hi N r0 sz : Nat}
    (hN : lo + N + hi = n + p) {X : Nat → K} (hX : SchoenbergWhitney t p n lo hi N X) (dx : K) (hlo : lo ≤ r0) (hr0 : r0 ≤ p)
    (h0 : 0 < sz) (hhi : hi ≤ n + p - (r0 + sz)) (hr1 : n ≤ r0 + sz) (hr : r0 + sz ≤ n + p) :
    Regular sz fun i j => collocation (condition t p n lo N X dx) (n + p) (n + p) 0 (r0 + i) (r0 + j) := by
  intro x hx j hj
  have hp := h.pos
  have hn := h.cells
  have key := clamped_unique h.mono hp hn hst hlow hupp hr0 (r1 := r0 + sz) hr hr1 (by omega) (Y := fun i => X (i - lo))
    (fun i j h1 h2 h3 => hX.increase _ _ (by omega) (by omega))
    (fun i h1 h2 => ⟨hX.ge _ (by omega), hX.le _ (by omega), by
      have := hX.support (i - lo) (by omega)
      rwa [show lo + (i - lo) = i by omega] at this⟩)
    (x := fun J => if r0 ≤ J ∧ J < r0 + sz then x (J - r0) else 0) (fun J hJ => if_neg (by omega))
    (fun i h1 h2 => by
      have h3 := hx (i - r0) (by omega)
      simp only [Bool.false_eq_true, if_false, show r0 + (i - r0) = i by omega] at h3
      refine Eq.trans ?_ h3
      rw [show Finset.range (n + p) = Finset.range (r0 + sz + (n + p - (r0 + sz))) by congr 1; omega,
        Finset.sum_range_add, Finset.sum_range_add,
        Finset.sum_eq_zero (s := Finset.range r0) fun J hJ => by
          have := Finset.mem_range.1 hJ
          rw [if_neg (by omega), mul_zero],
        Finset.sum_eq_zero (s := Finset.range (n + p - (r0 + sz))) fun J hJ => by rw [if_neg (by omega), mul_zero],
        zero_add, add_zero]
      refine Finset.sum_congr rfl fun J hJ => ?_
      have := Finset.mem_range.1 hJ
      rw [if_pos (by omega), collocation_open (by omega), condition, if_neg (by omega), if_pos (by omega),
        Nat.add_sub_cancel_left])
    (r0 + j) (by omega)
  rwa [if_pos (by omega), Nat.add_sub_cancel_left] at key

/-- The number of rows of an edge, for non-uniform B-splines. -/
def generalEdgeRows : Closure → Nat → Nat
  | .greville, p => p - 1
  | .periodic, p => p - 1
  | _, p => p / 2 + 1

/-- The values at the points of the main block are in the band that is stored. -/
def InBand (t : Nat → K) (p n lo N r0 r1 : Nat) (X : Nat → K) : Prop :=
  ∀ k J, k < N → r0 ≤ lo + k → lo + k < r1 → r0 ≤ J → J < r1 → bspline t (t (p + n)) p J (X k) ≠ 0 →
    J < lo + k + p ∧ lo + k < J + p

/-- Non-uniform B-splines with clamped knots: for an accepted grid that satisfies the conditions of
Schoenberg and Whitney, the constructor succeeds.  Missing: periodic dimensions (`C41h`); points out of the band of the
main block (`C41_dropped` shows what happens in a periodic dimension).  `hroom`: the main block is not empty. -/
theorem C41_general_partial (h : bs.Is false p n t) (hu : bs.isUniform = false)
    (hst : ∀ c, p ≤ c → c < p + n → t c < t (c + 1)) (hlow : ∀ i, i ≤ p → t i = t p)
    (hupp : ∀ i, p + n ≤ i → i < p + n + p → t i = t (p + n)) {L : Lapack K} (hL : L.Exact) {σ : Sched} (hσ : σ.Valid)
    {lower upper : Closure} (hf : Fits false lower upper) {s N : Nat} {coord : Elem Unit → Res K} {X : Nat → K}
    (hX : PointsIn t p n s N coord X) (hgrid : checkValidGrid bs lower upper (seg () s (s + N)) coord = .ok ())
    (hN : edgeEquations lower p + N + edgeEquations upper p = n + p)
    (hsw : SchoenbergWhitney t p n (edgeEquations lower p) (edgeEquations upper p) N X)
    (hroom : generalEdgeRows lower p + generalEdgeRows upper p < n + p)
    (hband : InBand t p n (edgeEquations lower p) N (generalEdgeRows lower p) (n + p - generalEdgeRows upper p) X) :
    ∃ B, Builder.mk' L σ bs lower upper (seg () s (s + N)) coord = .ok B ∧ B.offset = 0 := by
  have hsm := h.small
  have hp := h.pos
  have hn := h.cells
  have hle : ∀ c : Closure, c ≠ .periodic → edgeEquations c p ≤ p / 2 ∧ edgeEquations c p ≤ generalEdgeRows c p ∧
      generalEdgeRows c p ≤ p := by
    intro c hc
    cases c <;> simp_all [edgeEquations, generalEdgeRows] <;> omega
  have hbl : ∀ c : Closure, c.blockSize false p (c.equations p) = generalEdgeRows c p := by
    intro c
    cases c <;> simp [Closure.blockSize, Closure.equations, generalEdgeRows] <;> omega
  have l1 := hle lower hf.1
  have l2 := hle upper hf.2
  have hdx : (t (p + n) - t p) / (n : K) ≠ 0 := by
    have h1 : t p < t (p + n) := h.first.trans_le (h.mono (by omega))
    exact div_ne_zero (sub_ne_zero.2 h1.ne') (by exact_mod_cast hn.ne')
  obtain ⟨m, em, hfr, hsto, hsame⟩ := C54_blocks (K := K) ((n + p : Nat) : Int) ((p - 1 : Nat) : Int) ((p - 1 : Nat) : Int)
    (generalEdgeRows upper p : Int) (generalEdgeRows lower p : Int) false (by omega) (by omega) (by omega) (by omega) (by omega)
    (by omega) (by omega) (by simp)
  have hm : allocateMatrix bs (upper.blockSize bs.isUniform p (upper.equations p))
      (lower.blockSize bs.isUniform p (lower.equations p)) = .ok m := by
    rw [allocateMatrix, h.nbasis, h.periodic, hu, h.degree, Res.ok_bind, hbl upper, hbl lower]
    simp only [Bool.false_eq_true, if_false]
    rw [sizeToInt_ofNat (by omega), show ((p : Int) - 1) = ((p - 1 : Nat) : Int) by omega]
    exact em
  rw [Int.toNat_natCast] at hfr
  obtain ⟨m', M1, M2, M3, ⟨ws, M4⟩, M5⟩ := C41_constructs h L σ hf hX hgrid (off := 0)
    (by rw [computeOffset, h.periodic]; rfl) (by omega) (by simp) (nb := n + p) (by simp) hN rfl hm hfr
    (fun i j hi hj hne => by
      refine hsto i j ?_
      by_contra hcon
      push Not at hcon
      obtain ⟨c1, c2, c3, c4, c5⟩ := hcon
      rw [collocation_open hj, condition, if_neg (by omega), if_pos (by omega)] at hne
      have := hband (i - edgeEquations lower p) j (by omega) (by omega) (by omega) (by omega) (by omega) hne
      have := c5 (by omega)
      omega)
    (fun i j k l hi hj hk hl e => by
      rcases hsame _ _ e with e | ⟨e, -⟩
      · obtain ⟨rfl, rfl⟩ := Prod.mk.inj e; rfl
      · cases e)
  have hb := mainBlock_makeBlocks (by omega) (by omega) (by omega) (by omega) em
  have hb' := (mainBlock_writeAll ws (flat_makeBlocks em) M4).trans hb
  have hset := general_setup hL hσ (generalMain_writeAll ws (general_makeBlocks em) M4) M1 hb' (by omega) (by
    refine (Regular.congr fun i j hi hj => (M3 _ _ (by omega) (by omega)).symm).1 ?_
    exact clamped_block h hst hlow hupp hN hsw _ (by omega) (by omega) (by omega) (by omega) (by omega) (by omega))
  rw [M2, hfr.size, Regular.congr M3] at hset
  obtain ⟨S, e⟩ := hset.1 (C41_well_posed h hst l1.1 l2.1 hN hsw hdx)
  exact ⟨_, by rw [M5, e, Res.ok_bind], rfl⟩

/-! ## Greville points -/

theorem average_gt (hp : 0 < p) {j : Nat} {c : K} (h : ∀ k, k < p → c ≤ t (j + 1 + k)) {k : Nat} (hk : k < p)
    (hk' : c < t (j + 1 + k)) : c < average t p j := by
  have hp' : (0 : K) < p := by exact_mod_cast hp
  rw [average, lt_div_iff₀ hp']
  have := Finset.sum_lt_sum (s := Finset.range p) (f := fun _ => c) (g := fun k => t (j + 1 + k))
    (fun k hk => h k (Finset.mem_range.1 hk)) ⟨k, Finset.mem_range.2 hk, hk'⟩
  rw [Finset.sum_const, Finset.card_range, nsmul_eq_mul] at this
  linarith

theorem average_lt (hp : 0 < p) {j : Nat} {c : K} (h : ∀ k, k < p → t (j + 1 + k) ≤ c) {k : Nat} (hk : k < p)
    (hk' : t (j + 1 + k) < c) : average t p j < c := by
  have hp' : (0 : K) < p := by exact_mod_cast hp
  rw [average, div_lt_iff₀ hp']
  have := Finset.sum_lt_sum (s := Finset.range p) (g := fun _ => c) (f := fun k => t (j + 1 + k))
    (fun k hk => h k (Finset.mem_range.1 hk)) ⟨k, Finset.mem_range.2 hk, hk'⟩
  rw [Finset.sum_const, Finset.card_range, nsmul_eq_mul] at this
  linarith

/-- Clamped simple knots. -/
structure Clamped (t : Nat → K) (p n : Nat) : Prop where
  mono : Monotone t
  pos : 0 < p
  cells : 0 < n
  strict : ∀ i j, p ≤ i → i < j → j ≤ p + n → t i < t j
  lower : ∀ i, i ≤ p → t i = t p
  upper : ∀ i, p + n ≤ i → i < p + n + p → t i = t (p + n)

theorem Clamped.bounds (h : Clamped t p n) {i : Nat} (hi : i < n + p) :
    t (i + 1) ≤ average t p i ∧ average t p i ≤ t (i + p) ∧ t p ≤ average t p i ∧ average t p i ≤ t (p + n) := by
  refine ⟨average_ge h.pos fun k hk => h.mono (by omega), average_le h.pos fun k hk => h.mono (by omega),
    average_ge h.pos fun k hk => ?_, average_le h.pos fun k hk => ?_⟩
  · rcases Nat.lt_or_ge (i + 1 + k) p with c | c
    · rw [h.lower _ c.le]
    · exact h.mono c
  · rcases Nat.lt_or_ge (p + n) (i + 1 + k) with c | c
    · rw [h.upper _ c.le (by omega)]
    · exact h.mono c

theorem Clamped.above (h : Clamped t p n) {i : Nat} (hi : i < n + p) (h0 : 0 < i) : t i < average t p i ∧ t p < average t p i := by
  have hp := h.pos
  have hn := h.cells
  constructor
  · refine average_gt hp (fun k hk => h.mono (by omega)) (k := p - 1) (by omega) ?_
    rw [show i + 1 + (p - 1) = i + p by omega]
    rcases Nat.lt_or_ge i p with c | c
    · calc t i ≤ t p := h.mono c.le
        _ < t (p + 1) := h.strict _ _ le_rfl (by omega) (by omega)
        _ ≤ t (i + p) := h.mono (by omega)
    · exact (h.strict i (i + 1) c (by omega) (by omega)).trans_le (h.mono (by omega))
  · refine average_gt hp (fun k hk => ?_) (k := p - 1) (by omega) ?_
    · rcases Nat.lt_or_ge (i + 1 + k) p with c | c
      · rw [h.lower _ c.le]
      · exact h.mono c
    · exact (h.strict p (p + 1) le_rfl (by omega) (by omega)).trans_le (h.mono (by omega))

theorem Clamped.below (h : Clamped t p n) {i : Nat} (hi : i + 1 < n + p) : average t p i < t (p + n) := by
  have hp := h.pos
  have hn := h.cells
  refine average_lt hp (fun k hk => ?_) (k := 0) hp ?_
  · rcases Nat.lt_or_ge (p + n) (i + 1 + k) with c | c
    · rw [h.upper _ c.le (by omega)]
    · exact h.mono c
  · calc t (i + 1 + 0) ≤ t (max (i + 1) p) := h.mono (by omega)
      _ < t (p + n) := h.strict _ _ (by omega) (by omega) le_rfl

/-- The average number `i` is in a cell of the support of the B-spline `i`. -/
theorem Clamped.cell (h : Clamped t p n) {i : Nat} (hi : i < n + p) : ∃ c, InCell t (t (p + n)) (average t p i) c ∧
    p ≤ c ∧ c < p + n ∧ i ≤ c ∧ c ≤ i + p ∧ 0 < bspline t (t (p + n)) p i (average t p i) ∧
    (average t p i < t (c + 1) ∨ i = c ∧ c = p + n - 1 ∧ average t p i = t (p + n)) := by
  have hp := h.pos
  have hn := h.cells
  obtain ⟨b1, b2, b3, b4⟩ := h.bounds hi
  rcases b4.lt_or_eq with hlt | heq
  · have hex : ∃ m, average t p i < t m := ⟨p + n, hlt⟩
    classical
    have hfs := Nat.find_spec hex
    have hmin := @Nat.find_min _ _ hex
    generalize hmdef : Nat.find hex = m at hfs hmin
    have hmle : m ≤ p + n := hmdef ▸ Nat.find_min' hex hlt
    have hmp : p < m := by
      by_contra hcon
      rw [h.lower m (by omega)] at hfs
      exact absurd hfs (not_lt.2 b3)
    obtain ⟨c, rfl⟩ : ∃ c, m = c + 1 := ⟨m - 1, by omega⟩
    have hcl : t c ≤ average t p i := not_lt.1 (hmin (by omega))
    have hin : InCell t (t (p + n)) (average t p i) c := by
      rw [InCell, if_pos hlt]
      exact ⟨hcl, hfs⟩
    have h1 : i ≤ c := by
      by_contra hcon
      exact absurd hfs (not_lt.2 ((h.mono (by omega)).trans b1))
    have h2 : c ≤ i + p := by
      by_contra hcon
      exact absurd ((h.strict (i + p) c (by omega) (by omega) (by omega)).trans_le hcl) (not_lt.2 b2)
    refine ⟨c, hin, by omega, by omega, h1, h2, bspline_pos h.mono hin hfs h1 h2 ?_, .inl hfs⟩
    rcases Nat.eq_zero_or_pos i with rfl | h0
    · right
      have e : average t p 0 = t p := le_antisymm (b2.trans (by rw [Nat.zero_add])) b3
      rw [e] at hcl
      by_contra hcon
      exact absurd (h.strict p c le_rfl (by omega) (by omega)) (not_lt.2 hcl)
    · exact .inl (h.above hi h0).1
  · have hic : i = p + n - 1 := by
      by_contra hcon
      exact absurd heq (h.below (by omega)).ne
    have hlt : t (p + n - 1) < t (p + n) := h.strict _ _ (by omega) (by omega) le_rfl
    have hin : InCell t (t (p + n)) (average t p i) (p + n - 1) := by
      rw [InCell, heq, if_neg (lt_irrefl _), show p + n - 1 + 1 = p + n by omega]
      exact ⟨hlt, le_rfl⟩
    refine ⟨p + n - 1, hin, by omega, by omega, by omega, by omega, ?_, .inr ⟨hic, rfl, heq⟩⟩
    rw [hic] at hin ⊢
    exact bspline_pos_last h.mono hin (by rw [← hic, heq, hic]; exact hlt) p

theorem Clamped.increase (h : Clamped t p n) : ∀ i j, i < j → j < n + p → average t p i < average t p j := by
  have hp := h.pos
  have hn := h.cells
  refine strict_of_step fun i hi => average_step hp ?_
  calc t (i + 1) ≤ t (max (i + 1) p) := h.mono (by omega)
    _ < t (max (i + 1) p + 1) := h.strict _ _ (by omega) (by omega) (by omega)
    _ ≤ t (i + 1 + p) := h.mono (by omega)

/-- The averages satisfy the conditions of Schoenberg and Whitney. -/
theorem Clamped.wellPosed (h : Clamped t p n) {lo hi N : Nat} (hN : lo + N + hi = n + p) {X : Nat → K}
    (hX : ∀ k, k < N → X k = average t p (lo + k)) (h0 : 0 < N) : SchoenbergWhitney t p n lo hi N X where
  increase i j hij hj := by
    rw [hX i (by omega), hX j hj]
    exact h.increase _ _ (by omega) (by omega)
  ge k hk := by rw [hX k hk]; exact (h.bounds (by omega)).2.2.1
  le k hk := by rw [hX k hk]; exact (h.bounds (by omega)).2.2.2
  support k hk := by
    rw [hX k hk]
    obtain ⟨c, -, -, -, -, -, h1, -⟩ := h.cell (show lo + k < n + p by omega)
    exact h1.ne'
  lower h1 _ := by
    rw [hX 0 h0]
    exact (h.above (by omega) (by omega)).2.ne'
  upper h1 _ := by
    rw [hX _ (by omega)]
    exact (h.below (by omega)).ne

/-- The B-splines that do not vanish at an average. -/
theorem Clamped.band (h : Clamped t p n) {i J : Nat} (hi : i < n + p)
    (hJ : bspline t (t (p + n)) p J (average t p i) ≠ 0) : J < i + p ∧ i < J + p := by
  have hp := h.pos
  have hn := h.cells
  obtain ⟨b1, b2, b3, b4⟩ := h.bounds hi
  obtain ⟨c, hin, c1, c2, c3, c4, -, hc⟩ := h.cell hi
  rw [bspline_eq_piece h.mono hin] at hJ
  have hs : J ≤ c ∧ c ≤ J + p := by
    by_contra hcon
    rw [piece_zero t c p J (by omega)] at hJ
    simp at hJ
  refine ⟨?_, ?_⟩ <;> by_contra hcon
  · obtain rfl : J = c := by omega
    obtain rfl : J = i + p := by omega
    have e : average t p i = t (i + p) := le_antisymm b2 hin.le.1
    rw [e] at hJ
    obtain ⟨q, hq⟩ : ∃ q, p = q + 1 := ⟨p - 1, by omega⟩
    subst hq
    exact hJ (piece_first t q _)
  · obtain rfl : i = c := by omega
    rcases hc with hc | ⟨-, e1, e2⟩
    · exact absurd hc (not_lt.2 b1)
    · rw [e2] at hJ
      have := piece_upper h.mono (c := i) (p := p) (i := J) (k := 0)
        (fun j g1 g2 => by rw [h.upper (i + 1) (by omega) (by omega)]; exact h.upper j (by omega) (by omega)) (by omega)
      rw [show i + 1 = p + n by omega] at this
      exact hJ this

theorem Clamped.not_overfull (h : Clamped t p n) {lo hi N : Nat} (hN : lo + N + hi = n + p) {X : Nat → K}
    (hX : ∀ k, k < N → X k = average t p (lo + k)) : ¬Overfull t p n N X := by
  rintro ⟨k, hk, hc⟩
  have hsub : ((Finset.range N).filter fun i => t (p + k) ≤ X i ∧ X i ≤ t (p + k + 1)) ⊆
      (Finset.range N).filter fun i => k ≤ lo + i ∧ lo + i ≤ k + p := by
    intro i hi
    rw [Finset.mem_filter, Finset.mem_range] at hi ⊢
    obtain ⟨h1, h2, h3⟩ := hi
    rw [hX i h1] at h2 h3
    obtain ⟨b1, b2, -, -⟩ := h.bounds (show lo + i < n + p by omega)
    refine ⟨h1, ?_, ?_⟩ <;> by_contra hcon
    · exact absurd (h.strict (lo + i + p) (p + k) (by omega) (by omega) (by omega)) (not_lt.2 (h2.trans b2))
    · exact absurd (h.strict (p + k + 1) (lo + i + 1) (by omega) (by omega) (by omega)) (not_lt.2 (b1.trans h3))
  have h1 := Finset.card_le_card hsub
  have h2 : ((Finset.range N).filter fun i => k ≤ lo + i ∧ lo + i ≤ k + p).card ≤ p + 1 := by
    have : ((Finset.range N).filter fun i => k ≤ lo + i ∧ lo + i ≤ k + p) ⊆ Finset.Ico (k - lo) (k - lo + (p + 1)) := by
      intro i hi
      rw [Finset.mem_filter] at hi
      rw [Finset.mem_Ico]
      omega
    refine (Finset.card_le_card this).trans ?_
    rw [Nat.card_Ico]
    omega
  rw [cellCount] at hc
  omega

/-- Non-uniform B-splines of any degree on a bounded interval, with the points of
`GrevilleInterpolationPoints` and any closures: the grid is accepted, the builder is constructed and
interpolates any data and any derivatives up to a tolerance.  There is no hypothesis on the matrix, on the grid
or on the construction.  The tolerance comes from the entries of size at most `10⁻¹⁴` that the block matrices
drop; `τ` depends on the builder only, not on the data.
Missing: periodic dimensions (`C41_nonUniform_periodic_partial`); user-given points; a bound for `τ`.  `hroom` says that the main block is not
empty, `hsf` that the factorials of the derivatives fit an `int` (degrees up to 12). -/
theorem C41_nonUniform_partial (hp : 0 < p) (hsf : SmallFactors p) {breaks : List K} (hb : StrictBreaks breaks)
    (hs : breaks.length + 3 * p < 2 ^ 31) (hn : n = breaks.length - 1) {lower upper : Closure}
    (hf : Fits false lower upper) (hroom : generalEdgeRows lower p + generalEdgeRows upper p < n + p)
    {L : Lapack K} (hL : L.Exact) {σ : Sched} (hσ : σ.Valid) :
    ∃ u t D g B τ X, NUBS.mk' p false breaks = .ok u ∧ KnotsOf p false breaks t ∧ u.grevilleDomain lower upper = .ok D ∧
      u.grevilleSampling lower upper = .ok g ∧
      (∀ k, k < unknowns false p n lower upper → g.coordinate (el () k) = .ok (X k)) ∧
      Builder.mk' L σ (.nonUniform u) lower upper D g.coordinate = .ok B ∧
      ∀ (σ' : Sched) (_ : σ'.Valid) (junk : Nat → Nat → K) (spline vals : Mat K) (dmin dmax : Option (U64 × Mat K)),
      spline.rows = n + p → vals.rows = unknowns false p n lower upper → vals.cols = spline.cols →
      GivenDerivs lower p spline.cols dmin → GivenDerivs upper p spline.cols dmax →
      ∃ spline', B.apply L σ' junk spline vals dmin dmax = .ok spline' ∧ spline'.rows = n + p ∧
        spline'.cols = spline.cols ∧ ∀ j, j < spline.cols →
          InterpolatesUpTo t p n (unknowns false p n lower upper) X lower upper (fun k => vals.val k j)
            (fun i => derivAt dmin i j) (fun i => derivAt dmax i j) (fun J => spline'.val J j)
            ((t (p + n) - t p) / n) τ := by
  have h2 := hb.1
  have hg := GoodBreaks.of_strict hb.1 hb.2
  obtain ⟨u, t, eu, hper, hu, hk⟩ := NUBS.mk'_is hp false hb.1 (by omega) hg.sorted hg.lt
  have h := BSpl.is_of_nubs hp hg hs hsf hper hu hk
  rw [← hn] at h hu
  have hadd := unknowns_add (p := p) (n := n) hf
  simp only [Bool.false_eq_true, if_false] at hadd
  replace hadd : edgeEquations lower p + unknowns false p n lower upper + edgeEquations upper p = n + p := by omega
  have hcl : Clamped t p n := by
    refine ⟨h.mono, hp, by omega, fun i j h1 h2 h3 => strict_inner hb hk h1 h2 (by omega), fun i hi => (hk.clamped rfl i hi).1,
      fun i h1 h2 => ?_⟩
    have := (hk.clamped rfl (i - (p + n)) (by omega)).2
    rw [hn] at h1 ⊢
    rwa [show p + (breaks.length - 1) + (i - (p + n)) = i by omega] at this
  have hle : ∀ c : Closure, edgeEquations c p ≤ p / 2 := fun c => by have := edgeEquations_le c p; omega
  have l1 := hle lower
  have l2 := hle upper
  have h0 : 0 < unknowns false p n lower upper := by have := hcl.cells; omega
  have hsorted := hcl.increase
  obtain ⟨g, eg, -, -⟩ := goodMesh_list (N := unknowns false p n lower upper) (a := t p) (b := t (p + n))
    (fun j => average t p (edgeEquations lower p + j)) (by omega) (fun k hk => hsorted _ _ (by omega) (by omega))
    (fun _ => (hcl.bounds (by omega)).2.2.1) (fun _ => (hcl.bounds (by omega)).2.2.2)
  have hcoord : ∀ k, k < unknowns false p n lower upper → g.coordinate (el () k) = .ok (average t p (edgeEquations lower p + k)) := by
    intro k hk
    rw [coordinate_of_mk eg (by simpa using hk) (by omega)]
    simp
  have hX : PointsIn t p n 0 (unknowns false p n lower upper) g.coordinate
      (fun k => average t p (edgeEquations lower p + k)) := by
    refine ⟨by omega, fun k hk => ?_, fun k hk => (hcl.bounds (by omega)).2.2.1, fun k hk => (hcl.bounds (by omega)).2.2.2⟩
    rw [Nat.zero_add]
    exact hcoord k hk
  have hsw := hcl.wellPosed (X := fun k => average t p (edgeEquations lower p + k)) hadd (fun _ _ => rfl) h0
  have hgrid := C47_accepts h lower upper hX hsw.increase
    (by simp only [Bool.false_eq_true, if_false]; rw [equations_eq, equations_eq]; omega)
    (hcl.not_overfull hadd fun _ _ => rfl)
  obtain ⟨B, eB, ho⟩ := C41_general_partial h rfl (fun c h1 h2 => hcl.strict c (c + 1) h1 (by omega) (by omega)) hcl.lower
    hcl.upper hL hσ hf hX hgrid hadd hsw hroom (fun k J hk _ _ _ _ hne => hcl.band (by omega) hne)
  obtain ⟨τ, hτ⟩ := C41_coupling h hL hσ hX eB (by rw [ho]; omega) (by simp)
  rw [Nat.zero_add] at eB
  refine ⟨u, t, _, g, B, τ, _, eu, hk, ?_, ?_, hcoord, eB, ?_⟩
  · rw [nubs_grevilleDomain hu (by rw [hper]; exact hf), hper]
  · rw [grevilleSampling_open hu hper (fun j hj => hsorted _ _ (by omega) hj) hf, eg]
  · intro σ' hσ' junk spline vals dmin dmax g1 g2 g3 g4 g5
    rw [← Nat.zero_add (unknowns false p n lower upper)] at eB
    obtain ⟨s', e1, e2, e3, e4⟩ := C41_approximates_partial h hL hσ hX eB (by rw [ho]; omega) (by simp) (nb := n + p)
      (by simp) rfl hτ (fun e => by cases e) hσ' junk g1 g2 g3 g4 g5
    exact ⟨s', e1, e2, e3, fun j hj => (e4 j hj).1⟩

example {L : Lapack Rat} (hL : L.Exact) {σ : Sched} (hσ : σ.Valid) : ∃ u D g B,
    NUBS.mk' 5 false [(0 : Rat), 1, 3, 4, 8, 10, 11] = .ok u ∧ u.grevilleDomain .greville .hermite = .ok D ∧
      u.grevilleSampling .greville .hermite = .ok g ∧
      Builder.mk' L σ (.nonUniform u) .greville .hermite D g.coordinate = .ok B ∧ ∀ (y : Nat → Nat → Rat) (d : Nat → Nat → Rat),
      ∃ c, B.apply L σ (fun _ _ => 0) ⟨11, 4, fun _ _ => 0⟩ ⟨9, 4, y⟩ none (some (1, ⟨2, 4, d⟩)) = .ok c := by
  have hf : Fits false .greville .hermite := by simp [Fits]
  have hN : unknowns false 5 6 .greville .hermite = 9 := by
    have := unknowns_add (p := 5) (n := 6) hf
    simp [edgeEquations] at this
    omega
  obtain ⟨u, t, D, g, B, τ, X, e1, -, e3, e4, -, e6, e7⟩ := C41_nonUniform_partial (p := 5) (n := 6) (by norm_num)
    (.inl (by norm_num)) (breaks := [(0 : Rat), 1, 3, 4, 8, 10, 11]) (by
      refine ⟨by decide, fun i j hij hj => ?_⟩
      simp only [List.length_cons, List.length_nil] at hj
      interval_cases j <;> interval_cases i <;> norm_num) (by norm_num) rfl hf (by decide) hL hσ
  refine ⟨u, D, g, B, e1, e3, e4, e6, fun y d => ?_⟩
  obtain ⟨c, e, -⟩ := e7 σ hσ (fun _ _ => 0) ⟨11, 4, fun _ _ => 0⟩ ⟨9, 4, y⟩ none (some (1, ⟨2, 4, d⟩)) rfl hN.symm rfl
    (by simp [GivenDerivs]) (by simp [GivenDerivs, edgeEquations])
  exact ⟨c, e⟩

end DDC.Props
