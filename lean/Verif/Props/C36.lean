import Verif.Lemmas.Integrals
import Verif.Props.C32

/-!
# C36 — the integrals of the B-splines
-/

namespace DDC.Props

open One Polynomial

set_option linter.unusedSectionVars false

variable {K : Type} [Field K] [LinearOrder K] [IsStrictOrderedRing K]

/-- Specification: `I` is the integral of the B-spline `i` of degree `p` over the knot intervals
`lo, ..., hi - 1`: the sum of the increments of antiderivatives of its polynomial pieces. -/
def IsIntegral (t : Nat → K) (b : K) (p i lo hi : Nat) (I : K) : Prop :=
  ∃ Q : Nat → K[X],
    (∀ c, lo ≤ c → c < hi → t c < t (c + 1) → IsPiece t b p i c (derivative (Q c))) ∧
    I = ∑ c ∈ Finset.Ico lo hi, ((Q c).eval (t (c + 1)) - (Q c).eval (t c))

/-- The integral is determined by this. -/
theorem IsIntegral.unique {t : Nat → K} (ht : Monotone t) {b : K} {p i lo hi : Nat} (hb : t hi ≤ b)
    {I J : K} (hI : IsIntegral t b p i lo hi I) (hJ : IsIntegral t b p i lo hi J) : I = J := by
  obtain ⟨Q, h1, rfl⟩ := hI
  obtain ⟨R, h2, rfl⟩ := hJ
  refine Finset.sum_congr rfl fun c hc => ?_
  obtain ⟨g1, g2⟩ := Finset.mem_Ico.1 hc
  rcases (ht (Nat.le_succ c)).lt_or_eq with hlt | heq
  · have e := (h1 c g1 g2 hlt).unique hlt (le_trans (ht (by omega)) hb) (h2 c g1 g2 hlt)
    have e' : derivative (Q c - R c) = 0 := by rw [derivative_sub, e, sub_self]
    have hC := natDegree_eq_zero_of_derivative_eq_zero e'
    obtain ⟨k, hk⟩ := natDegree_eq_zero.1 hC
    have : Q c = R c + C k := by rw [hk]; ring
    rw [this]
    simp
  · rw [show c + 1 = Nat.succ c from rfl, ← heq]; simp

theorem isIntegral_total {t : Nat → K} {p n : Nat} (h : Spec.Ends t p n) (b : K) (j : Nat) :
    IsIntegral t b p j p (p + n) (Spec.total t p n j) := by
  refine ⟨fun c => Spec.prim t p j c, fun c _ _ hc => ?_, (Spec.total_sum h j).symm⟩
  rw [Spec.derivative_prim h.mono hc]
  exact isPiece_piece h.mono b p j c

/-- The sizes. -/
theorem sizeGuard (per : Bool) {N n p : Nat} (hN : if per then N = n ∨ N = n + p else N = n + p) :
    integralsSize per (BitVec.ofNat 64 N)
      (BitVec.ofNat 64 n + (if per then 0 else BitVec.ofNat 64 p))
      (BitVec.ofNat 64 p + BitVec.ofNat 64 n) = true := by
  cases per with
  | true =>
    simp only [if_true] at hN
    rcases hN with rfl | rfl
    · simp [integralsSize]
    · simp [integralsSize, BitVec.ofNat_add, BitVec.add_comm]
  | false =>
    simp only [Bool.false_eq_true, if_false] at hN
    subst hN
    simp [integralsSize, BitVec.ofNat_add]

/-- A `parallel_for_each` whose iteration `k` writes `f k` at the place `k`. -/
theorem fold_writes {N : Nat} (body : Chunk1 K → Nat → Res (Chunk1 K)) (f : Nat → K)
    (h : ∀ c k, c.On N → k < N → body c k = .ok ⟨c.dom, c.data.set k (f k)⟩) (l : List Nat)
    (hl : ∀ k ∈ l, k < N) (c : Chunk1 K) (hc : c.On N) :
    ∃ c', l.foldlM body c = .ok c' ∧ c'.On N ∧
      ∀ k, c'.data.val k = if k ∈ l then some (f k) else c.data.val k := by
  induction l generalizing c with
  | nil => exact ⟨c, rfl, hc, fun k => by simp⟩
  | cons k l ih =>
    obtain ⟨c', e, h1, h2⟩ := ih (fun k' hk' => hl k' (List.mem_cons_of_mem _ hk'))
      ⟨c.dom, c.data.set k (f k)⟩ ⟨hc.1, hc.2⟩
    refine ⟨c', ?_, h1, fun j => ?_⟩
    · rw [List.foldlM_cons, h c k hc (hl k (List.mem_cons_self ..)), Res.ok_bind, e]
    · rw [h2 j]
      by_cases hj : j ∈ l
      · rw [if_pos hj, if_pos (List.mem_cons_of_mem _ hj)]
      · rw [if_neg hj]
        show (c.data.set k (f k)).val j = _
        rw [Arr.set_val]
        by_cases hjk : j = k
        · rw [if_pos hjk, if_pos (by rw [hjk]; exact List.mem_cons_self ..), hjk]
        · rw [if_neg hjk, if_neg (by simp [hjk, hj])]

section

variable {u : NUBS K} {p n : Nat} {t : Nat → K}

theorem integralOne_ok (h : u.Is p n t) {N : Nat} (hN : N ≤ n + p) (c : Chunk1 K) (k : Nat) (hc : c.On N)
    (hk : k < N) :
    u.integralOne c (el () k) =
      .ok ⟨c.dom, c.data.set k ((t (k + p + 1) - t k) / ((p + 1 : Nat) : K))⟩ := by
  have hsm := h.small
  have e1 : u.firstSupportKnot (el () k) = .ok (el () k) := by
    rw [NUBS.firstSupportKnot, h.ref, One.sub_nat () (by omega), Res.ok_bind,
      show Vect.value (vec () (k - 0)) = .ok (BitVec.ofNat 64 k) from rfl, Res.ok_bind, h.knotDom,
      One.front, One.addInt_el, Nat.zero_add]
  have e2 : u.lastSupportKnot (el () k) = .ok (el () (k + (p + 1))) := by
    rw [NUBS.lastSupportKnot, e1, Res.ok_bind, h.degree, ve1_eq, addVec_nat]
  rw [NUBS.integralOne, e2, Res.ok_bind, h.coord _ (by omega), Res.ok_bind, e1, Res.ok_bind,
    h.coord _ (by omega), Res.ok_bind, Chunk1.put_ok hc (by omega) hk, h.degree, ← Nat.add_assoc]
  congr 4
  push_cast
  ring

/-- The entries computed by `non_uniform_bsplines_integrals`. -/
theorem nubs_integrals (h : u.Is p n t) {N : Nat}
    (hN : if u.periodic then N = n ∨ N = n + p else N = n + p) {sched : List U64}
    (hsched : sched.Perm ((List.range (if u.periodic then n else n + p)).map (BitVec.ofNat 64)))
    {vals : Chunk1 K} (hv : vals.On N) :
    ∃ c, u.integrals sched vals = .ok c ∧ c.On N ∧
      (∀ i, i < (if u.periodic then n else n + p) →
        c.data.val i = some ((t (i + p + 1) - t i) / ((p + 1 : Nat) : K))) ∧
      ∀ i, u.periodic = true → n ≤ i → i < N → c.data.val i = some 0 := by
  have hsm := h.small
  have hn := h.cells
  have hp := h.pos
  set m := if u.periodic then n else n + p with hm
  have hmN : m ≤ N := by cases hper : u.periodic <;> rw [hper] at hm hN <;> simp at hm hN <;> omega
  have hNnp : N ≤ n + p := by cases hper : u.periodic <;> rw [hper] at hN <;> simp at hN <;> omega
  have hnb : BitVec.ofNat 64 n + (if u.periodic then 0 else BitVec.ofNat 64 u.degree) =
      BitVec.ofNat 64 m := by
    rw [hm, h.degree]
    cases u.periodic <;> simp [BitVec.ofNat_add]
  have hsz : BitVec.ofNat 64 p + BitVec.ofNat 64 n = BitVec.ofNat 64 (n + p) := by
    rw [← BitVec.ofNat_add, Nat.add_comm]
  -- the order is a list of places
  obtain ⟨l, hl, rfl⟩ : ∃ l : List Nat, l.Perm (List.range m) ∧ sched = l.map (BitVec.ofNat 64) := by
    refine ⟨sched.map BitVec.toNat, ?_, ?_⟩
    · have := hsched.map BitVec.toNat
      rw [List.map_map] at this
      refine this.trans (List.Perm.of_eq ?_)
      conv_rhs => rw [← List.map_id (List.range m)]
      refine List.map_congr_left fun k hk => ?_
      have := List.mem_range.1 hk
      simp only [Function.comp, BitVec.toNat_ofNat, id]
      exact Nat.mod_eq_of_lt (by omega)
    · rw [List.map_map]
      conv_lhs => rw [← List.map_id sched]
      refine List.map_congr_left fun k _ => ?_
      simp
  obtain ⟨c, e, h1, h2⟩ := fold_writes (N := N) (fun vals k => do
      let ix ← Elem.addInt (el () 0) (BitVec.ofNat 64 k)
      u.integralOne vals ix) (fun k => (t (k + p + 1) - t k) / ((p + 1 : Nat) : K))
    (fun c k hc hk => by
      simp only [One.addInt_el, Res.ok_bind, Nat.zero_add]
      exact integralOne_ok h hNnp c k hc hk) l
    (fun k hk => by have := List.mem_range.1 (hl.mem_iff.1 hk); omega) vals hv
  have e' : (l.map (BitVec.ofNat 64)).foldlM (fun vals k => do
      let ix ← Elem.addInt (el () 0) k
      u.integralOne vals ix) vals = .ok c := by
    rw [List.foldlM_map]; exact e
  have hguard := sizeGuard u.periodic (n := n) (p := p) hN
  rw [← h.degree, hnb, h.degree, hsz] at hguard
  have hnbasis : u.nbasis = .ok (BitVec.ofNat 64 m) := by
    rw [NUBS.nbasis, h.ncells, Res.ok_bind, hnb]; rfl
  have hsize : u.size = .ok (BitVec.ofNat 64 (n + p)) := by
    rw [NUBS.size, h.ncells, Res.ok_bind, h.degree, hsz]; rfl
  have hfull : u.fullDomain = .ok (seg () 0 (n + p)) := by
    rw [NUBS.fullDomain, hsize, Res.ok_bind, h.ref, ve1_eq, ofSize_nat, Nat.zero_add]
  have key : u.integrals (l.map (BitVec.ofNat 64)) vals =
      if u.periodic && decide (BitVec.ofNat 64 N = BitVec.ofNat 64 (n + p)) then
        c.fillSub (seg () n (n + p)) 0 else .ok c := by
    rw [NUBS.integrals, hv.1, seg_size (by omega), Res.ok_bind, hnbasis, Res.ok_bind, hsize, Res.ok_bind,
      Nat.sub_zero, hguard, Res.guardAbort_true, Res.ok_bind, hfull, Res.ok_bind, ve1_eq, One.takeFirst,
      Res.ok_bind, One.front, e', Res.ok_bind, h.degree, ve1_eq, One.takeLast () (by omega) (by omega),
      Nat.add_sub_cancel]
    rfl
  rw [key]
  have hval : ∀ i, i < m → c.data.val i = some ((t (i + p + 1) - t i) / ((p + 1 : Nat) : K)) := by
    intro i hi
    rw [h2 i, if_pos (hl.mem_iff.2 (List.mem_range.2 hi))]
  by_cases hper : u.periodic = true
  · have hmn : m = n := by rw [hm, if_pos hper]
    rw [if_pos hper] at hN
    by_cases hNn : N = n + p
    · subst hNn
      obtain ⟨c', e2, k1, k2⟩ := Chunk1.fill_ok h1 (by omega) (show n ≤ n + p by omega) (by omega)
        (le_refl _) 0
      refine ⟨c', by simp [hper, e2], k1, fun i hi => ?_, fun i _ hi hi' => ?_⟩
      · rw [k2, if_neg (by omega)]; exact hval i hi
      · rw [k2, if_pos ⟨hi, hi'⟩]
    · have hNn' : N = n := by omega
      subst hNn'
      have hne : ¬ (BitVec.ofNat 64 N = BitVec.ofNat 64 (N + p)) := by
        intro hz
        have := congrArg BitVec.toNat hz
        rw [BitVec.toNat_ofNat, BitVec.toNat_ofNat, Nat.mod_eq_of_lt (by omega),
          Nat.mod_eq_of_lt (by omega)] at this
        omega
      refine ⟨c, by rw [if_neg (by simp [hne])], h1, hval, fun i _ hi hi' => absurd hi' (by omega)⟩
  · refine ⟨c, by rw [if_neg (by simp [hper])], h1, hval, fun i hi => absurd hi hper⟩

end

/-- Non-uniform B-splines, not periodic.  For all degrees, all break points and all orders of execution,
every entry is the integral of its B-spline over the domain, and they sum to the length of the domain. -/
theorem C36_non_uniform (p : Nat) (hp : 0 < p) (breaks : List K) (hb : GoodBreaks breaks)
    (hs : breaks.length + 2 * p < 2 ^ 63) :
    ∃ u t, NUBS.mk' p false breaks = .ok u ∧ Monotone t ∧
      (∀ k, k < breaks.length + 2 * p → u.knots.coordinate (el1 (BitVec.ofNat 64 k)) = .ok (t k)) ∧
      ∀ n, n = breaks.length - 1 → ∀ sched : List U64,
        sched.Perm ((List.range (n + p)).map (BitVec.ofNat 64)) → ∀ vals : Chunk1 K, vals.On (n + p) →
          ∃ (c : Chunk1 K) (v : Nat → K), u.integrals sched vals = .ok c ∧ c.On (n + p) ∧
            (∀ i, i < n + p → c.data.val i = some (v i) ∧ IsIntegral t (t (p + n)) p i p (p + n) (v i)) ∧
            ∑ i ∈ Finset.range (n + p), v i = t (p + n) - t p := by
  have h2 := hb.two
  obtain ⟨u, t, e, hper, hu, hk⟩ := NUBS.mk'_is hp false hb.two hs hb.sorted hb.lt
  obtain ⟨g0, g1⟩ := goodEnds hb hk
  refine ⟨u, t, e, hu.mono, fun k hk => hu.coord k (by omega), ?_⟩
  rintro n rfl sched hsched vals hv
  have hE : Spec.Ends t p (breaks.length - 1) := ⟨hu.mono, by omega, g0, g1⟩
  have hcl := hk.clamped rfl
  obtain ⟨c, e1, h1, h3, -⟩ := nubs_integrals hu (N := breaks.length - 1 + p) (by simp [hper])
    (sched := sched) (by simpa [hper] using hsched) hv
  simp only [hper, Bool.false_eq_true, if_false] at h3
  refine ⟨c, fun i => (t (i + p + 1) - t i) / ((p + 1 : Nat) : K), e1, h1, fun i hi => ⟨h3 i hi, ?_⟩, ?_⟩
  · have := isIntegral_total hE (t (p + (breaks.length - 1))) i
    rwa [Spec.total_clamped hE hcl hi] at this
  · refine Spec.width_sum t p _ fun k hk => ?_
    rw [(hcl k hk).1, Nat.add_comm _ p, (hcl k hk).2]

/-- Specification: the entries of the integrals of the periodic splines.  The basis function `i` is the
sum of the B-splines whose index is `i` modulo the number `n` of cells; the other entries are zero. -/
structure PeriodicIntegrals (t : Nat → K) (p n N : Nat) (c : Chunk1 K) : Prop where
  value : ∃ J : Nat → K, (∀ j, j < n + p → IsIntegral t (t (p + n)) p j p (p + n) (J j)) ∧
    ∀ i, i < n → c.data.val i = some (∑ j ∈ Finset.range (n + p), if j % n = i then J j else 0)
  zero : ∀ i, n ≤ i → i < N → c.data.val i = some 0
  sum : ∃ v : Nat → K, (∀ i, i < N → c.data.val i = some (v i)) ∧
    ∑ i ∈ Finset.range N, v i = t (p + n) - t p

theorem periodicIntegrals_of {t : Nat → K} {p n N : Nat} (hE : Spec.Ends t p n) (hr : Spec.Rep t p n)
    {c : Chunk1 K} (hN : N = n ∨ N = n + p)
    (h1 : ∀ i, i < n → c.data.val i = some ((t (i + p + 1) - t i) / ((p + 1 : Nat) : K)))
    (h2 : ∀ i, n ≤ i → i < N → c.data.val i = some 0) : PeriodicIntegrals t p n N c where
  value := by
    refine ⟨Spec.total t p n, fun j _ => isIntegral_total hE _ j, fun i hi => ?_⟩
    rw [h1 i hi, Spec.total_periodic hE hr (fun j => j % n = i) (fun j => by simp)]
    congr 1
    rw [Finset.sum_eq_single i]
    · rw [if_pos (Nat.mod_eq_of_lt hi)]
    · intro j hj hne
      rw [if_neg (by rw [Nat.mod_eq_of_lt (Finset.mem_range.1 hj)]; exact hne)]
    · intro hx; exact absurd (Finset.mem_range.2 hi) hx
  zero := h2
  sum := by
    refine ⟨fun i => if i < n then (t (i + p + 1) - t i) / ((p + 1 : Nat) : K) else 0, fun i hi => ?_, ?_⟩
    · by_cases h : i < n
      · simp only [h, if_true]; exact h1 i h
      · simp only [h, if_false]; exact h2 i (by omega) hi
    · have : ∑ i ∈ Finset.range N, (if i < n then (t (i + p + 1) - t i) / ((p + 1 : Nat) : K) else 0) =
          ∑ i ∈ Finset.range n, (t (i + p + 1) - t i) / ((p + 1 : Nat) : K) := by
        obtain ⟨d, rfl⟩ : ∃ d, N = n + d := ⟨N - n, by omega⟩
        rw [Finset.sum_range_add, Finset.sum_eq_zero (s := Finset.range d), add_zero]
        · exact Finset.sum_congr rfl fun i hi => if_pos (Finset.mem_range.1 hi)
        · intro i _; exact if_neg (by omega)
      rw [this]
      refine Spec.width_sum t p n fun k hk => ?_
      rw [Nat.add_comm n k, hr k (by omega)]
      ring

/-- Non-uniform B-splines, periodic; the chunk has either the basis functions only or the repeated ones as
well. -/
theorem C36_non_uniform_periodic (p : Nat) (hp : 0 < p) (breaks : List K) (hb : GoodBreaks breaks)
    (hs : breaks.length + 2 * p < 2 ^ 63) :
    ∃ u t, NUBS.mk' p true breaks = .ok u ∧ Monotone t ∧
      (∀ k, k < breaks.length + 2 * p → u.knots.coordinate (el1 (BitVec.ofNat 64 k)) = .ok (t k)) ∧
      ∀ n, n = breaks.length - 1 → ∀ sched : List U64,
        sched.Perm ((List.range n).map (BitVec.ofNat 64)) →
        ∀ N, (N = n ∨ N = n + p) → ∀ vals : Chunk1 K, vals.On N →
          ∃ c, u.integrals sched vals = .ok c ∧ c.On N ∧ PeriodicIntegrals t p n N c := by
  have h2 := hb.two
  obtain ⟨u, t, e, hper, hu, hk⟩ := NUBS.mk'_is hp true hb.two hs hb.sorted hb.lt
  obtain ⟨g0, g1⟩ := goodEnds hb hk
  refine ⟨u, t, e, hu.mono, fun k hk => hu.coord k (by omega), ?_⟩
  rintro n rfl sched hsched N hN vals hv
  obtain ⟨c, e1, h1, h3, h4⟩ := nubs_integrals hu (N := N) (by simpa [hper] using hN)
    (sched := sched) (by simpa [hper] using hsched) hv
  simp only [hper, if_true] at h3
  exact ⟨c, e1, h1, periodicIntegrals_of ⟨hu.mono, by omega, g0, g1⟩ (hk.periodic rfl) hN h3
    (fun i hi hi' => h4 i hper hi hi')⟩

/-! ## Uniform B-splines -/

section

variable {p n : Nat} {a b : K} {per : Bool}

theorem uniform_ends (hab : a < b) (hn : 0 < n) : Spec.Ends (Spec.uniformKnot a b n p) p n where
  mono := (uniformKnot_strictMono hab hn).monotone
  cells := hn
  first := uniformKnot_strictMono hab hn (by omega)
  last := uniformKnot_strictMono hab hn (by omega)

theorem uniform_rep : Spec.Rep (Spec.uniformKnot a b n p) p n := by
  intro k _
  rw [uniformKnot_step k n, uniformKnot_step p n]
  ring

theorem uniform_width (i : Nat) :
    (Spec.uniformKnot a b n p (i + p + 1) - Spec.uniformKnot a b n p i) / ((p + 1 : Nat) : K) =
      (b - a) / (n : K) := by
  have hp : ((p + 1 : Nat) : K) ≠ 0 := by exact_mod_cast Nat.succ_ne_zero p
  rw [Nat.add_assoc, uniformKnot_step i (p + 1), add_sub_cancel_left, mul_div_assoc,
    mul_div_cancel₀ _ hp]

/-- Part of a B-spline on the left of the domain. -/
noncomputable def outside (a b : K) (n p j : Nat) : K :=
  (Spec.cum (Spec.uniformKnot a b n p) p (p + 1) j).eval (Spec.uniformKnot a b n p p)

theorem uniform_total_inside (hab : a < b) (hn : 0 < n) {i : Nat} (h1 : p ≤ i) (h2 : i < n) :
    Spec.total (Spec.uniformKnot a b n p) p n i = (b - a) / (n : K) := by
  rw [Spec.total, uniform_width, Spec.end_one (uniform_ends hab hn) h2, Spec.start_zero h1]
  ring

theorem uniform_total_first (hab : a < b) (hn : 0 < n) {i : Nat} (h1 : i < p) (h2 : i < n) :
    Spec.total (Spec.uniformKnot a b n p) p n i = (b - a) / (n : K) * outside a b n p (p - 1 - i) := by
  have hh := step_pos hab (show 1 < n + 1 by omega)
  simp only [Nat.add_sub_cancel] at hh
  have := Spec.cum_symm (t := Spec.uniformKnot a b n p) hh.ne' (fun k j => uniformKnot_step k j) p p i
    (p - 1 - i) (by omega) (by omega) (by omega)
  rw [Spec.total, uniform_width, Spec.end_one (uniform_ends hab hn) h2, outside]
  rw [← this]
  ring

theorem uniform_total_last (hab : a < b) (hn : 0 < n) (hpn : p ≤ n) {i : Nat} (h1 : i < p) :
    Spec.total (Spec.uniformKnot a b n p) p n (n + p - 1 - i) =
      (b - a) / (n : K) * outside a b n p (p - 1 - i) := by
  rw [Spec.total, uniform_width, Spec.start_zero (by omega), show n + p - 1 - i = n + (p - 1 - i) by omega,
    Spec.end_rep (uniform_ends hab hn) uniform_rep (by omega), outside, sub_zero]

/-- The sum of the last values of degree `p + 1` at the left end. -/
theorem uniform_edge (hab : a < b) (hn : 0 < n) {i : Nat} (h1 : i < p) :
    ∑ r ∈ Finset.Ico (p - i) (p + 2), tri (uL 0) (uR 0) (1 : K) (p + 1) r =
      outside a b n p (p - 1 - i) := by
  set t' := Spec.uniformKnot a b n (p + 1) with ht'
  have hm : StrictMono t' := uniformKnot_strictMono hab hn
  have ha : t' (p + 1) = a := uniformKnot_first
  have hcell : Spec.InCell t' b a (p + 1) := by
    rw [Spec.InCell, if_pos hab, ha]
    exact ⟨le_refl _, by conv_lhs => rw [← ha]
                         exact hm (by omega)⟩
  have hco := fun j r hj => ubs_coeffs (p := p + 1) (a := a) (b := b) (n := n) hab hn (ic := 0) (o := 0)
    (x := a) (by rw [Nat.add_zero, uniformKnot_first, zero_mul, add_zero]) j r hj
  have htri : ∀ r, r ≤ p + 1 → tri (uL 0) (uR 0) (1 : K) (p + 1) r =
      (Spec.piece t' (p + 1) (p + 1) r).eval a := by
    intro r hr
    rw [tri_bspline hm.monotone hcell 1 (p + 1) (le_refl _)
      (fun j r hj _ => (hco j r (by omega)).1) (fun j r hj _ => (hco j r (by omega)).2) (p + 1) r
      (le_refl _) hr, one_mul, Spec.bspline_eq_piece hm.monotone hcell, Nat.sub_self, Nat.zero_add]
  have e1 := Spec.cum_eq_sum hm.monotone (c := p + 1) (hm (by omega)) (p + 1) (p - i) (i + 2) (by omega)
  have e2 := Spec.cum_shift (t := Spec.uniformKnot a b n p) (t' := t') (n := 1) (s := 0) p (p + 1)
    (p - 1 - i) (fun k _ _ => by rw [ht', Spec.uniformKnot, Spec.uniformKnot]; push_cast; ring) a
  rw [add_zero, show p - 1 - i + 1 = p - i by omega, e1, eval_finset_sum] at e2
  rw [outside, uniformKnot_first, ← e2, Finset.sum_Ico_eq_sum_range,
    show p + 2 - (p - i) = i + 2 by omega]
  refine Finset.sum_congr rfl fun r hr => ?_
  rw [htri _ (by have := Finset.mem_range.1 hr; omega)]

variable [FloorRing K]

theorem edgeIntegral_ok (hp : 0 < p) (hab : a < b) (hn : 0 < n) (hn' : n < 2 ^ 31)
    (hs : n + 1 + 2 * p < 2 ^ 63) {i : Nat} (hi : i < p) {c : Chunk1 K} (hc : c.On (n + p)) :
    (ubs p per a b n).edgeIntegral (el () 0) (el () (n + p - 1)) c i =
      .ok ⟨c.dom, (c.data.set i ((b - a) / (n : K) * outside a b n p (p - 1 - i))).set (n + p - 1 - i)
        ((b - a) / (n : K) * outside a b n p (p - 1 - i))⟩ := by
  have hh := step_pos hab (show 1 < n + 1 by omega)
  simp only [Nat.add_sub_cancel] at hh
  obtain ⟨ic, o, v, h1, h2, h3, h4, h5, h6⟩ := ubs_evalBasisDeg (per := per) hab hn hn' hs
    ⟨le_refl a, hab.le⟩ (q := p + 1) (values := Arr.uninit (p + 2)) rfl
  have hcell : (ubs p per a b n).getIcellAndOffset a = .ok (0, 0) := by
    simp only [UBS.getIcellAndOffset, ubs_rmin hs, ubs_rmax hn hs, Res.ok_bind,
      checkInside_ok hab ⟨le_refl a, hab.le⟩, ubs_ncells, le_refl, if_true]
    rfl
  rw [hcell] at h1
  have ho : o = 0 := (congrArg Prod.snd (Res.ok.inj h1)).symm
  subst ho
  have hsum1 := sumArr_ok (a := v) (f := tri (uL 0) (uR 0) 1 (p + 1)) (lo := 0) (hi := p + 2)
    (by rw [h6.1]) (fun k _ hk => h6.2 k (by omega))
  have hsum2 := sumArr_ok (a := v) (f := tri (uL 0) (uR 0) 1 (p + 1)) (lo := 0) (hi := p - i)
    (by rw [h6.1]; omega) (fun k _ hk => h6.2 k (by omega))
  have hdiff : ∑ k ∈ Finset.Ico 0 (p + 2), tri (uL 0) (uR 0) (1 : K) (p + 1) k -
      ∑ k ∈ Finset.Ico 0 (p - i), tri (uL 0) (uR 0) (1 : K) (p + 1) k = outside a b n p (p - 1 - i) := by
    rw [← Finset.sum_Ico_consecutive _ (Nat.zero_le (p - i)) (by omega : p - i ≤ p + 2),
      add_sub_cancel_left, uniform_edge hab hn hi]
  have hdeg : (ubs p per a b n).degree = p := rfl
  have hst : (ubs p per a b n).knots.step = (b - a) / (n : K) := rfl
  rw [UBS.edgeIntegral, ubs_rmin hs, Res.ok_bind, hdeg, h2, Res.ok_bind, h6.1, hsum1, Res.ok_bind, hsum2,
    Res.ok_bind, hdiff, hst, One.addInt_el, Res.ok_bind, Nat.zero_add, Chunk1.put_ok hc (by omega) (by omega),
    Res.ok_bind, One.subInt_el (by omega), Res.ok_bind]
  exact Chunk1.put_ok (c := ⟨c.dom, c.data.set i _⟩) (N := n + p) ⟨hc.1, hc.2⟩ (by omega) (by omega) _

/-- A `parallel_for` whose iteration `k` writes `f k` at the places `k` and `M - k`. -/
theorem fold_writes_sym {N M q : Nat} (body : Chunk1 K → Nat → Res (Chunk1 K)) (f : Nat → K)
    (hM : 2 * q ≤ M + 1)
    (h : ∀ c k, c.On N → k < q → body c k = .ok ⟨c.dom, (c.data.set k (f k)).set (M - k) (f k)⟩)
    (l : List Nat) (hl : ∀ k ∈ l, k < q) (c : Chunk1 K) (hc : c.On N) :
    ∃ c', l.foldlM body c = .ok c' ∧ c'.On N ∧ (∀ k ∈ l, c'.data.val k = some (f k)) ∧
      (∀ k ∈ l, c'.data.val (M - k) = some (f k)) ∧
      ∀ j, (∀ k ∈ l, j ≠ k ∧ j ≠ M - k) → c'.data.val j = c.data.val j := by
  induction l generalizing c with
  | nil => exact ⟨c, rfl, hc, fun k hk => absurd hk (by simp), fun k hk => absurd hk (by simp), fun _ _ => rfl⟩
  | cons k l ih =>
    have hkq := hl k (List.mem_cons_self ..)
    obtain ⟨c', e, h1, h2, h3, h4⟩ := ih (fun k' hk' => hl k' (List.mem_cons_of_mem _ hk'))
      ⟨c.dom, (c.data.set k (f k)).set (M - k) (f k)⟩ ⟨hc.1, hc.2⟩
    have hsame : ∀ j, k ∉ l → (j = k ∨ j = M - k) → c'.data.val j = some (f k) := by
      intro j hk hj
      rw [h4 j (fun k' hk' => by
        have := hl k' (List.mem_cons_of_mem _ hk')
        have : k' ≠ k := fun e => hk (e ▸ hk')
        omega)]
      show ((c.data.set k (f k)).set (M - k) (f k)).val j = _
      rw [Arr.set_val, Arr.set_val]
      rcases hj with rfl | rfl
      · simp
      · simp
    refine ⟨c', ?_, h1, ?_, ?_, ?_⟩
    · rw [List.foldlM_cons, h c k hc hkq, Res.ok_bind, e]
    · intro j hj
      by_cases hjl : j ∈ l
      · exact h2 j hjl
      · have : j = k := by simpa [hjl] using hj
        subst this
        exact hsame j hjl (Or.inl rfl)
    · intro j hj
      by_cases hjl : j ∈ l
      · exact h3 j hjl
      · have : j = k := by simpa [hjl] using hj
        subst this
        exact hsame _ hjl (Or.inr rfl)
    · intro j hj
      rw [h4 j (fun k' hk' => hj k' (List.mem_cons_of_mem _ hk'))]
      show ((c.data.set k (f k)).set (M - k) (f k)).val j = _
      obtain ⟨g1, g2⟩ := hj k (List.mem_cons_self ..)
      rw [Arr.set_val, if_neg g2, Arr.set_val, if_neg g1]

theorem ubs_size : (ubs p per a b n).size = .ok (BitVec.ofNat 64 (n + p)) := by
  rw [UBS.size, ubs_ncells, Res.ok_bind, show (ubs p per a b n).degree = p from rfl, ← BitVec.ofNat_add,
    Nat.add_comm]
  rfl

theorem ubs_full : (ubs p per a b n).fullDomain = .ok (seg () 0 (n + p)) := by
  rw [UBS.fullDomain, ubs_size, Res.ok_bind, show (ubs p per a b n).ref = el () 0 from rfl, ve1_eq,
    ofSize_nat, Nat.zero_add]

/-- `full_domain().remove(degree, degree)`, also when there are fewer cells than the degree. -/
theorem remove_ends (hs : n + p < 2 ^ 63) :
    Dom.remove (seg () 0 (n + p)) (vec () p) (vec () p) = .ok (seg () p n) := by
  have h1 : Vect.sub (vec () n) (vec () p) = .ok [((), BitVec.ofNat 64 n - BitVec.ofNat 64 p)] := by
    rw [vec, vec, vsub]
    have : sSub (BitVec.ofNat 64 n) (BitVec.ofNat 64 p) = .ok (BitVec.ofNat 64 n - BitVec.ofNat 64 p) := by
      rw [sSub, toInt_ofNat (by omega), toInt_ofNat (by omega)]
      rw [signedRes, if_pos (by omega)]
      congr 1
      rw [Int.sub_eq_add_neg, BitVec.ofInt_add, BitVec.ofInt_neg, BitVec.ofInt_natCast, BitVec.ofInt_natCast,
        BitVec.sub_eq_add_neg]
    rw [this]
    rfl
  rw [Dom.remove, One.front, addVec_nat, Res.ok_bind, extents_nat () (by omega), Res.ok_bind, Nat.sub_zero,
    show Vect.sub (vec () (n + p)) (vec () p) = .ok (vec () n) by
      rw [vec, vec, vsub_nat () (by omega) (by omega), Nat.add_sub_cancel]; rfl,
    Res.ok_bind, h1, Res.ok_bind, el, ofSize, seg, Nat.zero_add]
  congr 3
  rw [BitVec.add_comm, BitVec.sub_add_cancel]

end

/-- Uniform B-splines, not periodic, at least as many cells as the degree. -/
theorem C36_uniform_partial [FloorRing K] (p : Nat) (hp : 0 < p) (a b : K) (hab : a < b) (n : Nat)
    (hn : 0 < n) (hpn : p ≤ n) (hn' : n < 2 ^ 31) (hs : n + 1 + 2 * p < 2 ^ 63) :
    ∃ u, UBS.mk' p false a b (BitVec.ofNat 64 n) = .ok u ∧
      ∀ sched : List Nat, sched.Perm (List.range p) → ∀ vals : Chunk1 K, vals.On (n + p) →
        ∃ (c : Chunk1 K) (v : Nat → K), u.integrals sched vals = .ok c ∧ c.On (n + p) ∧
          (∀ i, i < n + p → c.data.val i = some (v i) ∧
            IsIntegral (Spec.uniformKnot a b n p) b p i p (p + n) (v i)) ∧
          ∑ i ∈ Finset.range (n + p), v i = b - a := by
  refine ⟨_, UBS.mk'_ok hp false hab hn hs, fun sched hsched vals hv => ?_⟩
  have hE := uniform_ends (p := p) hab hn
  obtain ⟨c1, e1, h1, h2⟩ := Chunk1.fill_ok hv (by omega) hpn hn (by omega) ((b - a) / (n : K))
  obtain ⟨c, e2, k1, k2, k3, k4⟩ := fold_writes_sym (N := n + p) (M := n + p - 1) (q := p)
    ((ubs p false a b n).edgeIntegral (el () 0) (el () (n + p - 1)))
    (fun i => (b - a) / (n : K) * outside a b n p (p - 1 - i)) (by omega)
    (fun c k hc hk => edgeIntegral_ok hp hab hn hn' hs hk hc) sched
    (fun k hk => List.mem_range.1 (hsched.mem_iff.1 hk)) c1 h1
  refine ⟨c, Spec.total (Spec.uniformKnot a b n p) p n, ?_, k1, fun i hi => ⟨?_, isIntegral_total hE b i⟩, ?_⟩
  · have hnb : (ubs p false a b n).nbasis = .ok (BitVec.ofNat 64 (n + p)) := by
      rw [UBS.nbasis, ubs_ncells, Res.ok_bind]
      simp [ubs, BitVec.ofNat_add]
    have hg : integralsSize false (BitVec.ofNat 64 (n + p)) (BitVec.ofNat 64 (n + p))
        (BitVec.ofNat 64 (n + p)) = true := by simp [integralsSize]
    have hper : (ubs p false a b n).periodic = false := rfl
    rw [UBS.integrals, hv.1, seg_size (by omega), Res.ok_bind, hnb, Res.ok_bind, ubs_size, Res.ok_bind,
      Nat.sub_zero, hper, hg, Res.guardAbort_true, Res.ok_bind, ubs_full, Res.ok_bind]
    simp only [Bool.false_eq_true, if_false]
    rw [show (ubs p false a b n).degree = p from rfl, ve1_eq, remove_ends (by omega), Res.ok_bind,
      show (ubs p false a b n).knots.step = (b - a) / (n : K) from rfl, e1, Res.ok_bind,
      back_nat () (by omega), Res.ok_bind, One.front, e2]
  · by_cases h3 : i < p
    · rw [k2 i (hsched.mem_iff.2 (List.mem_range.2 h3)), uniform_total_first hab hn h3 (by omega)]
    · by_cases h4 : i < n
      · rw [k4 i (fun k hk => by have := List.mem_range.1 (hsched.mem_iff.1 hk); omega), h2,
          if_pos ⟨by omega, h4⟩, uniform_total_inside hab hn (by omega) h4]
      · have h5 := k3 (n + p - 1 - i) (hsched.mem_iff.2 (List.mem_range.2 (by omega)))
        have h6 := uniform_total_last hab hn hpn (i := n + p - 1 - i) (by omega)
        rw [show n + p - 1 - (n + p - 1 - i) = i by omega] at h5 h6
        rw [h5, h6]
  · have := Spec.total_periodic hE uniform_rep (fun _ => True) (fun _ => Iff.rfl)
    simp only [if_true] at this
    rw [this, Finset.sum_congr rfl (fun i _ => uniform_width i), Finset.sum_const, Finset.card_range,
      nsmul_eq_mul]
    have : (n : K) ≠ 0 := by exact_mod_cast hn.ne'
    field_simp

/-- With fewer cells than the degree, `uniform_bsplines_integrals` takes a slice whose beginning is after
its end, on a domain of negative size that passes the assertions: the behaviour is undefined. -/
theorem C36_few_cells [FloorRing K] (p : Nat) (a b : K) (hab : a < b) (n : Nat)
    (hn : 0 < n) (hpn : n < p) (hs : n + 1 + 2 * p < 2 ^ 63) :
    ∃ u, UBS.mk' p false a b (BitVec.ofNat 64 n) = .ok u ∧
      ∀ (sched : List Nat) (vals : Chunk1 K), vals.On (n + p) → u.integrals sched vals = .ub := by
  refine ⟨_, UBS.mk'_ok (by omega) false hab hn hs, fun sched vals hv => ?_⟩
  have hnb : (ubs p false a b n).nbasis = .ok (BitVec.ofNat 64 (n + p)) := by
    rw [UBS.nbasis, ubs_ncells, Res.ok_bind]
    simp [ubs, BitVec.ofNat_add]
  have hg : integralsSize false (BitVec.ofNat 64 (n + p)) (BitVec.ofNat 64 (n + p))
      (BitVec.ofNat 64 (n + p)) = true := by simp [integralsSize]
  have hper : (ubs p false a b n).periodic = false := rfl
  rw [UBS.integrals, hv.1, seg_size (by omega), Res.ok_bind, hnb, Res.ok_bind, ubs_size, Res.ok_bind,
    Nat.sub_zero, hper, hg, Res.guardAbort_true, Res.ok_bind, ubs_full, Res.ok_bind]
  simp only [Bool.false_eq_true, if_false]
  rw [show (ubs p false a b n).degree = p from rfl, ve1_eq, remove_ends (by omega), Res.ok_bind,
    Chunk1.fill_ub hv (by omega) hpn (by omega) hn]
  rfl

/-- Uniform B-splines, periodic. -/
theorem C36_uniform_periodic [FloorRing K] (p : Nat) (hp : 0 < p) (a b : K) (hab : a < b) (n : Nat)
    (hn : 0 < n) (hs : n + 1 + 2 * p < 2 ^ 63) :
    ∃ u, UBS.mk' p true a b (BitVec.ofNat 64 n) = .ok u ∧
      ∀ (sched : List Nat) (N : Nat), (N = n ∨ N = n + p) → ∀ vals : Chunk1 K, vals.On N →
        ∃ c, u.integrals sched vals = .ok c ∧ c.On N ∧
          PeriodicIntegrals (Spec.uniformKnot a b n p) p n N c := by
  refine ⟨_, UBS.mk'_ok hp true hab hn hs, fun sched N hN vals hv => ?_⟩
  have hE := uniform_ends (p := p) hab hn
  have hNnp : N ≤ n + p := by omega
  obtain ⟨c1, e1, h1, h2⟩ := Chunk1.fill_ok hv (by omega) (Nat.zero_le n) hn (by omega) ((b - a) / (n : K))
  have hnb : (ubs p true a b n).nbasis = .ok (BitVec.ofNat 64 n) := by
    rw [UBS.nbasis, ubs_ncells, Res.ok_bind]
    simp [ubs]
  have hg := sizeGuard true (n := n) (p := p) (N := N) (by simpa using hN)
  rw [← BitVec.ofNat_add, Nat.add_comm p n] at hg
  simp only [if_true] at hg
  have h0 : (BitVec.ofNat 64 n + 0 : U64) = BitVec.ofNat 64 n := by simp
  rw [h0] at hg
  have hper : (ubs p true a b n).periodic = true := rfl
  have key : (ubs p true a b n).integrals sched vals =
      if BitVec.ofNat 64 N = BitVec.ofNat 64 (n + p) then c1.fillSub (seg () n (n + p)) 0 else .ok c1 := by
    rw [UBS.integrals, hv.1, seg_size (by omega), Res.ok_bind, hnb, Res.ok_bind, ubs_size, Res.ok_bind,
      Nat.sub_zero, hper, hg, Res.guardAbort_true, Res.ok_bind, ubs_full, Res.ok_bind]
    simp only [if_true]
    rw [ve1_eq, One.takeFirst, Res.ok_bind, Nat.zero_add,
      show (ubs p true a b n).knots.step = (b - a) / (n : K) from rfl, e1, Res.ok_bind,
      show (ubs p true a b n).degree = p from rfl, ve1_eq, One.takeLast () (by omega) (by omega),
      Nat.add_sub_cancel]
    rfl
  rw [key]
  by_cases hNn : N = n + p
  · subst hNn
    rw [if_pos rfl]
    obtain ⟨c, e2, k1, k2⟩ := Chunk1.fill_ok h1 (by omega) (show n ≤ n + p by omega) (by omega)
      (le_refl _) 0
    refine ⟨c, e2, k1, periodicIntegrals_of hE uniform_rep hN (fun i hi => ?_) (fun i hi hi' => ?_)⟩
    · rw [k2, if_neg (by omega), h2, if_pos ⟨by omega, hi⟩, uniform_width]
    · rw [k2, if_pos ⟨hi, hi'⟩]
  · have hNn' : N = n := by omega
    subst hNn'
    rw [if_neg (by
      intro hz
      have := congrArg BitVec.toNat hz
      rw [BitVec.toNat_ofNat, BitVec.toNat_ofNat, Nat.mod_eq_of_lt (by omega),
        Nat.mod_eq_of_lt (by omega)] at this
      omega)]
    refine ⟨c1, rfl, h1, periodicIntegrals_of hE uniform_rep hN (fun i hi => ?_)
      (fun i hi hi' => absurd hi' (by omega))⟩
    rw [h2, if_pos ⟨by omega, hi⟩, uniform_width]

/-- A chunk of another size aborts. -/
theorem C36_requires [FloorRing K] (p : Nat) (hp : 0 < p) (per : Bool) (n : Nat) (hn : 0 < n)
    (hs : n + 1 + 2 * p < 2 ^ 63) (vals : Chunk1 K) (N : U64) (hN : Dom.size vals.dom = .ok N)
    (h : if per then N.toNat ≠ n ∧ N.toNat ≠ n + p else N.toNat ≠ n + p) :
    (∀ a b : K, a < b → ∃ u, UBS.mk' p per a b (BitVec.ofNat 64 n) = .ok u ∧
      ∀ sched, u.integrals sched vals = .abort) ∧
    (∀ breaks : List K, breaks.length = n + 1 → GoodBreaks breaks → ∃ u, NUBS.mk' p per breaks = .ok u ∧
      ∀ sched, u.integrals sched vals = .abort) := by
  have hg : integralsSize per N (BitVec.ofNat 64 n + (if per then 0 else BitVec.ofNat 64 p))
      (BitVec.ofNat 64 (n + p)) = false := by
    have h1 : N.toNat ≠ n → ¬ N = BitVec.ofNat 64 n := fun h e => h (by
      rw [e, BitVec.toNat_ofNat, Nat.mod_eq_of_lt (by omega)])
    have h2 : N.toNat ≠ n + p → ¬ N = BitVec.ofNat 64 (n + p) := fun h e => h (by
      rw [e, BitVec.toNat_ofNat, Nat.mod_eq_of_lt (by omega)])
    cases per with
    | true =>
      simp only [if_true] at h
      simp [integralsSize, h1 h.1, h2 h.2]
    | false =>
      simp only [Bool.false_eq_true, if_false] at h
      have := h2 h
      rw [BitVec.ofNat_add] at this
      simp [integralsSize, this]
  refine ⟨fun a b hab => ⟨_, UBS.mk'_ok hp per hab hn hs, fun sched => ?_⟩, fun breaks hl hb => ?_⟩
  · rw [UBS.integrals, hN, Res.ok_bind, UBS.nbasis, ubs_ncells, Res.ok_bind,
      show (ubs p per a b n).periodic = per from rfl, show (ubs p per a b n).degree = p from rfl,
      Res.pure_eq, Res.ok_bind, ubs_size, Res.ok_bind, hg]
    rfl
  · obtain ⟨u, t, e, hper, hu, -⟩ := NUBS.mk'_is hp per hb.two (by omega) hb.sorted hb.lt
    rw [show breaks.length - 1 = n by omega] at hu
    refine ⟨u, e, fun sched => ?_⟩
    rw [NUBS.integrals, hN, Res.ok_bind, NUBS.nbasis, hu.ncells, Res.ok_bind, hper, hu.degree,
      Res.pure_eq, Res.ok_bind, NUBS.size, hu.ncells, Res.ok_bind, hu.degree, Res.pure_eq, Res.ok_bind,
      ← BitVec.ofNat_add, Nat.add_comm p n, hg]
    rfl

/-- An uninitialised chunk on the first `N` elements. -/
def fresh (N : Nat) : Chunk1 Rat := ⟨seg () 0 N, Arr.uninit N⟩

example (N : Nat) : (fresh N).On N := ⟨rfl, rfl⟩

/-- Cubic B-splines on four cells: the first three and the last three leave the domain. -/
example :
    (UBS.mk' 3 false (0 : Rat) 4 4 >>= fun u => u.integrals [2, 0, 1] (fresh 7)) >>= (fun c => c.data.toList) =
      .ok [1 / 24, 1 / 2, 23 / 24, 1, 23 / 24, 1 / 2, 1 / 24] := by
  decide +kernel

/-- One cell and degree two: undefined. -/
example : ((UBS.mk' 2 false (0 : Rat) 1 1 >>= fun u => u.integrals [0, 1] (fresh 3)) >>=
    fun c => c.data.toList) = .ub := by
  decide +kernel

/-- Quadratic B-splines on three cells of different lengths, periodic, with the repeated entries. -/
example :
    (NUBS.mk' 2 true [(0 : Rat), 1, 3, 4] >>= fun u => u.integrals [1, 2, 0] (fresh 5)) >>=
      (fun c => c.data.toList) = .ok [4 / 3, 4 / 3, 4 / 3, 0, 0] := by
  decide +kernel

example :
    (NUBS.mk' 2 false [(0 : Rat), 1, 3, 4] >>= fun u => u.integrals [4, 1, 2, 0, 3] (fresh 5)) >>=
      (fun c => c.data.toList) = .ok [1 / 3, 1, 4 / 3, 1, 1 / 3] := by
  decide +kernel

end DDC.Props
