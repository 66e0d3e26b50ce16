import Verif.Model.RoundedIntegrals
import Verif.Props.C43
import Verif.Props.C60b
import Verif.Props.C67

/-!
# C69 — integrals of B-splines and of splines with rounding
-/

namespace DDC.Props

open One Polynomial Rounded Spec Finset

set_option linter.unusedSectionVars false

variable {fl : Rat → Rat}

/-! ## Non-uniform B-splines -/

/-- The value computed for the B-spline `k`. -/
def widthR (fl : Rat → Rat) (t : Nat → Rat) (p k : Nat) : Rat := fl (fl (t (k + p + 1) - t k) * fl (1 / ((p : Rat) + 1)))

section

variable {u : NUBS Rat} {p n : Nat} {t : Nat → Rat}

theorem integralOneR_ok (h : u.Is p n t) {N : Nat} (hN : N ≤ n + p) (c : Chunk1 Rat) (k : Nat) (hc : c.On N)
    (hk : k < N) :
    Rounded.integralOne fl u c (el () k) = .ok ⟨c.dom, c.data.set k (widthR fl t p k)⟩ := by
  have hsm := h.small
  have e1 : u.firstSupportKnot (el () k) = .ok (el () k) := by
    rw [NUBS.firstSupportKnot, h.ref, One.sub_nat () (by omega), Res.ok_bind,
      show Vect.value (vec () (k - 0)) = .ok (BitVec.ofNat 64 k) from rfl, Res.ok_bind, h.knotDom,
      One.front, One.addInt_el, Nat.zero_add]
  have e2 : u.lastSupportKnot (el () k) = .ok (el () (k + (p + 1))) := by
    rw [NUBS.lastSupportKnot, e1, Res.ok_bind, h.degree, ve1_eq, addVec_nat]
  rw [Rounded.integralOne, e2, Res.ok_bind, h.coord _ (by omega), Res.ok_bind, e1, Res.ok_bind,
    h.coord _ (by omega), Res.ok_bind, Chunk1.put_ok hc (by omega) hk, h.degree, ← Nat.add_assoc]
  rfl

/-- The entries computed by `non_uniform_bsplines_integrals`. -/
theorem nubs_integralsR (h : u.Is p n t) {N : Nat}
    (hN : if u.periodic then N = n ∨ N = n + p else N = n + p) {sched : List U64}
    (hsched : sched.Perm ((List.range (if u.periodic then n else n + p)).map (BitVec.ofNat 64)))
    {vals : Chunk1 Rat} (hv : vals.On N) :
    ∃ c, Rounded.integrals fl u sched vals = .ok c ∧ c.On N ∧
      (∀ i, i < (if u.periodic then n else n + p) →
        c.data.val i = some (widthR fl t p i)) ∧
      ∀ i, u.periodic = true → n ≤ i → i < N → c.data.val i = some 0 := by
  have hsm := h.small
  have hn := h.cells
  have hp := h.pos
  set m := if u.periodic then n else n + p with hm
  have hmN : m ≤ N := by cases hper : u.periodic <;> rw [hper] at hm hN <;> simp at hm hN <;> omega
  have hNnp : N ≤ n + p := by cases hper : u.periodic <;> rw [hper] at hN <;> simp at hN <;> omega
  have hnb : BitVec.ofNat 64 n + (if u.periodic then 0 else BitVec.ofNat 64 u.degree) =
      BitVec.ofNat 64 m := by
    rw [hm, h.degree]
    cases u.periodic <;> simp [BitVec.ofNat_add]
  have hsz : BitVec.ofNat 64 p + BitVec.ofNat 64 n = BitVec.ofNat 64 (n + p) := by
    rw [← BitVec.ofNat_add, Nat.add_comm]
  -- the order is a list of places
  obtain ⟨l, hl, rfl⟩ : ∃ l : List Nat, l.Perm (List.range m) ∧ sched = l.map (BitVec.ofNat 64) := by
    refine ⟨sched.map BitVec.toNat, ?_, ?_⟩
    · have := hsched.map BitVec.toNat
      rw [List.map_map] at this
      refine this.trans (List.Perm.of_eq ?_)
      conv_rhs => rw [← List.map_id (List.range m)]
      refine List.map_congr_left fun k hk => ?_
      have := List.mem_range.1 hk
      simp only [Function.comp, BitVec.toNat_ofNat, id]
      exact Nat.mod_eq_of_lt (by omega)
    · rw [List.map_map]
      conv_lhs => rw [← List.map_id sched]
      refine List.map_congr_left fun k _ => ?_
      simp
  obtain ⟨c, e, h1, h2⟩ := fold_writes (N := N) (fun vals k => do
      let ix ← Elem.addInt (el () 0) (BitVec.ofNat 64 k)
      Rounded.integralOne fl u vals ix) (widthR fl t p)
    (fun c k hc hk => by
      simp only [One.addInt_el, Res.ok_bind, Nat.zero_add]
      exact integralOneR_ok h hNnp c k hc hk) l
    (fun k hk => by have := List.mem_range.1 (hl.mem_iff.1 hk); omega) vals hv
  have e' : (l.map (BitVec.ofNat 64)).foldlM (fun vals k => do
      let ix ← Elem.addInt (el () 0) k
      Rounded.integralOne fl u vals ix) vals = .ok c := by
    rw [List.foldlM_map]; exact e
  have hguard := sizeGuard u.periodic (n := n) (p := p) hN
  rw [← h.degree, hnb, h.degree, hsz] at hguard
  have hnbasis : u.nbasis = .ok (BitVec.ofNat 64 m) := by
    rw [NUBS.nbasis, h.ncells, Res.ok_bind, hnb]; rfl
  have hsize : u.size = .ok (BitVec.ofNat 64 (n + p)) := by
    rw [NUBS.size, h.ncells, Res.ok_bind, h.degree, hsz]; rfl
  have hfull : u.fullDomain = .ok (seg () 0 (n + p)) := by
    rw [NUBS.fullDomain, hsize, Res.ok_bind, h.ref, ve1_eq, ofSize_nat, Nat.zero_add]
  have key : Rounded.integrals fl u (l.map (BitVec.ofNat 64)) vals =
      if u.periodic && decide (BitVec.ofNat 64 N = BitVec.ofNat 64 (n + p)) then
        c.fillSub (seg () n (n + p)) 0 else .ok c := by
    rw [Rounded.integrals, hv.1, seg_size (by omega), Res.ok_bind, hnbasis, Res.ok_bind, hsize, Res.ok_bind,
      Nat.sub_zero, hguard, Res.guardAbort_true, Res.ok_bind, hfull, Res.ok_bind, ve1_eq, One.takeFirst,
      Res.ok_bind, One.front, e', Res.ok_bind, h.degree, ve1_eq, One.takeLast () (by omega) (by omega),
      Nat.add_sub_cancel]
    rfl
  rw [key]
  have hval : ∀ i, i < m → c.data.val i = some (widthR fl t p i) := by
    intro i hi
    rw [h2 i, if_pos (hl.mem_iff.2 (List.mem_range.2 hi))]
  by_cases hper : u.periodic = true
  · have hmn : m = n := by rw [hm, if_pos hper]
    rw [if_pos hper] at hN
    by_cases hNn : N = n + p
    · subst hNn
      obtain ⟨c', e2, k1, k2⟩ := Chunk1.fill_ok h1 (by omega) (show n ≤ n + p by omega) (by omega)
        (le_refl _) 0
      refine ⟨c', by simp [hper, e2], k1, fun i hi => ?_, fun i _ hi hi' => ?_⟩
      · rw [k2, if_neg (by omega)]; exact hval i hi
      · rw [k2, if_pos ⟨hi, hi'⟩]
    · have hNn' : N = n := by omega
      subst hNn'
      have hne : ¬ (BitVec.ofNat 64 N = BitVec.ofNat 64 (N + p)) := by
        intro hz
        have := congrArg BitVec.toNat hz
        rw [BitVec.toNat_ofNat, BitVec.toNat_ofNat, Nat.mod_eq_of_lt (by omega),
          Nat.mod_eq_of_lt (by omega)] at this
        omega
      refine ⟨c, by rw [if_neg (by simp [hne])], h1, hval, fun i _ hi hi' => absurd hi' (by omega)⟩
  · refine ⟨c, by rw [if_neg (by simp [hper])], h1, hval, fun i hi => absurd hi hper⟩

theorem widthR_near (hfl : RoundsAll fl) (ht : Monotone t) (k : Nat) :
    |widthR fl t p k - (t (k + p + 1) - t k) / ((p + 1 : Nat) : Rat)| ≤
      4 / 2 ^ 53 * ((t (k + p + 1) - t k) / ((p + 1 : Nat) : Rat)) := by
  have h0 : 0 ≤ t (k + p + 1) - t k := sub_nonneg.2 (ht (by omega))
  have h1 := (((Near.refl (t (k + p + 1) - t k)).fl hfl).mul ((Near.refl (1 / ((p : Rat) + 1))).fl hfl)).fl hfl
  have e : (t (k + p + 1) - t k) * (1 / ((p : Rat) + 1)) = (t (k + p + 1) - t k) / ((p + 1 : Nat) : Rat) := by
    push_cast; ring
  rw [e, Near] at h1
  have hw : 0 ≤ (t (k + p + 1) - t k) / ((p + 1 : Nat) : Rat) := by positivity
  rw [abs_of_nonneg hw] at h1
  refine h1.trans (mul_le_mul_of_nonneg_right ?_ hw)
  norm_num [up]

end

/-- Non-uniform B-splines, not periodic, whatever the rounding, the spacing of the break points and the order of
execution: every entry is the integral of its B-spline over the domain with a relative error of at most `4·2⁻⁵³`, and the
entries sum to the length of the domain with the same relative error. -/
theorem C69_non_uniform (hfl : RoundsAll fl) (p : Nat) (hp : 0 < p) (breaks : List Rat) (hb : GoodBreaks breaks)
    (hs : breaks.length + 2 * p < 2 ^ 63) :
    ∃ u t, NUBS.mk' p false breaks = .ok u ∧ Monotone t ∧
      (∀ k, k < breaks.length + 2 * p → u.knots.coordinate (el1 (BitVec.ofNat 64 k)) = .ok (t k)) ∧
      ∀ n, n = breaks.length - 1 → ∀ sched : List U64,
        sched.Perm ((List.range (n + p)).map (BitVec.ofNat 64)) → ∀ vals : Chunk1 Rat, vals.On (n + p) →
          ∃ (c : Chunk1 Rat) (v I : Nat → Rat), Rounded.integrals fl u sched vals = .ok c ∧ c.On (n + p) ∧
            (∀ i, i < n + p → c.data.val i = some (v i) ∧ IsIntegral t (t (p + n)) p i p (p + n) (I i) ∧
              |v i - I i| ≤ 4 / 2 ^ 53 * I i) ∧
            |∑ i ∈ Finset.range (n + p), v i - (t (p + n) - t p)| ≤ 4 / 2 ^ 53 * (t (p + n) - t p) := by
  have h2 := hb.two
  obtain ⟨u, t, e, hper, hu, hk⟩ := NUBS.mk'_is hp false hb.two hs hb.sorted hb.lt
  obtain ⟨g0, g1⟩ := goodEnds hb hk
  refine ⟨u, t, e, hu.mono, fun k hk => hu.coord k (by omega), ?_⟩
  rintro n rfl sched hsched vals hv
  have hE : Spec.Ends t p (breaks.length - 1) := ⟨hu.mono, by omega, g0, g1⟩
  have hcl := hk.clamped rfl
  obtain ⟨c, e1, h1, h3, -⟩ := nubs_integralsR (fl := fl) hu (N := breaks.length - 1 + p) (by simp [hper])
    (sched := sched) (by simpa [hper] using hsched) hv
  simp only [hper, Bool.false_eq_true, if_false] at h3
  have hsum : ∑ i ∈ Finset.range (breaks.length - 1 + p), (t (i + p + 1) - t i) / ((p + 1 : Nat) : Rat) =
      t (p + (breaks.length - 1)) - t p := by
    refine Spec.width_sum t p _ fun k hk => ?_
    rw [(hcl k hk).1, Nat.add_comm _ p, (hcl k hk).2]
  refine ⟨c, widthR fl t p, fun i => (t (i + p + 1) - t i) / ((p + 1 : Nat) : Rat), e1, h1, fun i hi => ⟨h3 i hi, ?_, ?_⟩, ?_⟩
  · have := isIntegral_total hE (t (p + (breaks.length - 1))) i
    rwa [Spec.total_clamped hE hcl hi] at this
  · exact widthR_near hfl hu.mono i
  · rw [← hsum, ← sum_sub_distrib, mul_sum]
    exact (abs_sum_le_sum_abs _ _).trans (sum_le_sum fun i _ => widthR_near hfl hu.mono i)

/-- A double sum of differences. -/
theorem sum_cross (t : Nat → Rat) (n q : Nat) :
    ∑ i ∈ range n, (t (i + q) - t i) = ∑ k ∈ range q, (t (k + n) - t k) := by
  induction q with
  | zero => simp
  | succ q ih =>
    rw [sum_range_succ, ← ih, Nat.add_comm q n]
    have := sum_range_sub (fun i => t (i + q)) n
    rw [Nat.zero_add] at this
    rw [← this, ← sum_add_distrib]
    refine sum_congr rfl fun i _ => ?_
    rw [show i + 1 + q = i + (q + 1) by omega]
    ring

/-- Non-uniform B-splines, periodic, whatever the rounding: with respect to the computed knots, of which those outside of
the domain are a periodic extension up to rounding errors, the entry of each basis function is its integral
`(t (i + p + 1) - t i) / (p + 1)` over its support with a relative error of at most `4·2⁻⁵³`, the repeated entries are
zero, and the entries sum to the period `L` up to `(3 M + 4 L) 2⁻⁵²`, where `M` bounds the knots. -/
theorem C69_non_uniform_periodic (hfl : RoundsAll fl) (p : Nat) (hp : 0 < p) (breaks : List Rat) (hb : WideEnds fl breaks)
    (hs : breaks.length + 2 * p < 2 ^ 63) :
    ∃ u t, Rounded.mkNubs fl p true breaks = .ok u ∧ Monotone t ∧
      (∀ i (h : i < breaks.length), t (p + i) = breaks[i]) ∧
      (∀ k, k < breaks.length + 2 * p → u.knots.coordinate (el1 (BitVec.ofNat 64 k)) = .ok (t k)) ∧
      ∀ n, n = breaks.length - 1 → ∀ sched : List U64,
        sched.Perm ((List.range n).map (BitVec.ofNat 64)) →
        ∀ N, (N = n ∨ N = n + p) → ∀ vals : Chunk1 Rat, vals.On N →
          ∃ (c : Chunk1 Rat) (v : Nat → Rat), Rounded.integrals fl u sched vals = .ok c ∧ c.On N ∧
            (∀ i, i < N → c.data.val i = some (v i)) ∧
            (∀ i, i < n → |v i - (t (i + p + 1) - t i) / ((p + 1 : Nat) : Rat)| ≤
              4 / 2 ^ 53 * ((t (i + p + 1) - t i) / ((p + 1 : Nat) : Rat))) ∧
            (∀ i, n ≤ i → v i = 0) ∧
            ∀ M, (∀ k, k ≤ n + p → |t k| ≤ M) →
              |∑ i ∈ Finset.range N, v i - (t (p + n) - t p)| ≤ 1 / 2 ^ 52 * (3 * M + 4 * (t (p + n) - t p)) := by
  have h2 := hb.two
  obtain ⟨u, t, e, hper, hu, hk, g0, g1, hn⟩ := mkNubs_is hfl hp hs hb
  refine ⟨u, t, e, hu.mono, hk, fun k hk => hu.coord k (by omega), ?_⟩
  rintro n rfl sched hsched N hN vals hv
  obtain ⟨c, e1, h1, h3, h4⟩ := nubs_integralsR (fl := fl) hu (N := N) (by simpa [hper] using hN)
    (sched := sched) (by simpa [hper] using hsched) hv
  simp only [hper, if_true] at h3
  generalize breaks.length - 1 = n at *
  refine ⟨c, fun i => if i < n then widthR fl t p i else 0, e1, h1, fun i hi => ?_, fun i hi => ?_, fun i hi => ?_,
    fun M hM => ?_⟩
  · dsimp only
    split
    · exact h3 i ‹_›
    · exact h4 i hper (by omega) hi
  · dsimp only
    rw [if_pos hi]
    exact widthR_near hfl hu.mono i
  · exact if_neg (by omega)
  · have hNn : ∑ i ∈ range N, (if i < n then widthR fl t p i else 0) = ∑ i ∈ range n, widthR fl t p i := by
      obtain ⟨d, rfl⟩ : ∃ d, N = n + d := ⟨N - n, by omega⟩
      rw [Finset.sum_range_add, Finset.sum_eq_zero (s := Finset.range d), add_zero]
      · exact Finset.sum_congr rfl fun i hi => if_pos (Finset.mem_range.1 hi)
      · intro i _; exact if_neg (by omega)
    rw [hNn]
    obtain ⟨L, hL⟩ : ∃ L, L = t (p + n) - t p := ⟨_, rfl⟩
    rw [← hL] at hn ⊢
    have hL0 : 0 ≤ L := by rw [hL]; exact sub_nonneg.2 (hu.mono (by omega))
    have hM0 : 0 ≤ M := (abs_nonneg _).trans (hM 0 (by omega))
    have hq : (0 : Rat) < ((p + 1 : Nat) : Rat) := by positivity
    have hw : |∑ i ∈ range n, (t (i + p + 1) - t i) / ((p + 1 : Nat) : Rat) - L| ≤ 1 / 2 ^ 52 * (2 * M + L) := by
      have e2 := sum_cross t n (p + 1)
      have e3 : ∑ i ∈ range n, (t (i + p + 1) - t i) / ((p + 1 : Nat) : Rat) - L =
          (∑ k ∈ range (p + 1), (t (k + n) - (t k + L))) / ((p + 1 : Nat) : Rat) := by
        rw [← sum_div, sum_congr rfl (fun i _ => show t (i + p + 1) - t i = t (i + (p + 1)) - t i from rfl), e2,
          sum_congr rfl (fun k _ => show t (k + n) - (t k + L) = (t (k + n) - t k) - L by ring),
          sum_sub_distrib (fun k => t (k + n) - t k) (fun _ => L), sum_const, card_range, nsmul_eq_mul, sub_div,
          mul_div_cancel_left₀ _ hq.ne']
      rw [e3, abs_div, abs_of_pos hq, div_le_iff₀ hq]
      refine (abs_sum_le_sum_abs _ _).trans ((sum_le_card_nsmul _ _ (1 / 2 ^ 52 * (2 * M + L)) fun k hk => ?_).trans
        (le_of_eq ?_))
      · rw [mem_range] at hk
        refine (hn k (by omega)).trans (mul_le_mul_of_nonneg_left ?_ (by norm_num))
        have := hM k (by omega)
        have := hM (k + n) (by omega)
        linarith
      · rw [card_range, nsmul_eq_mul, mul_comm]
    have hv' : |∑ i ∈ range n, widthR fl t p i - ∑ i ∈ range n, (t (i + p + 1) - t i) / ((p + 1 : Nat) : Rat)| ≤
        4 / 2 ^ 53 * ∑ i ∈ range n, (t (i + p + 1) - t i) / ((p + 1 : Nat) : Rat) := by
      rw [← sum_sub_distrib, mul_sum]
      exact (abs_sum_le_sum_abs _ _).trans (sum_le_sum fun i _ => widthR_near hfl hu.mono i)
    have := abs_sub_le (∑ i ∈ range n, widthR fl t p i) (∑ i ∈ range n, (t (i + p + 1) - t i) / ((p + 1 : Nat) : Rat)) L
    have hw' := (abs_le.1 hw).2
    linarith

/-! ## Uniform B-splines -/

/-- The computed sum of values that are not negative. -/
theorem sumArrR_ok (hfl : RoundsAll fl) {a : Arr Rat} {f : Nat → Rat} {m : Nat} (hm : m ≤ a.size)
    (h : ∀ k, k < m → a.val k = some (f k)) :
    ∃ s, Rounded.sumArr fl a 0 m = .ok s ∧ |s - ∑ k ∈ range m, f k| ≤ (up m - 1) * ∑ k ∈ range m, |f k| := by
  obtain ⟨s, e, -, h2⟩ := forLoop_inv (f := fun i acc => do let v ← a.rd i; pure (fl (acc + v)))
    (fun i s => |∑ k ∈ range i, f k| ≤ ∑ k ∈ range i, |f k| ∧
      |s - ∑ k ∈ range i, f k| ≤ (up i - 1) * ∑ k ∈ range i, |f k|) m 0 (0 : Rat) (by simp)
    (by
      rintro i s - hi ⟨h1, h2⟩
      rw [Nat.zero_add] at hi
      rw [Arr.rd_ok (by omega) (h i hi), Res.ok_bind]
      refine ⟨_, rfl, ?_⟩
      rw [sum_range_succ, sum_range_succ]
      exact sum_step hfl h1 h2 ((Near.refl (f i)).mono (Nat.zero_le _)))
  rw [Nat.zero_add] at h2
  exact ⟨s, e, h2⟩

/-- The value computed at the ends of the domain, in units of the step. -/
theorem edge_near (hfl : RoundsAll fl) {p i : Nat} (hi : i < p) (hp' : p + 1 < 2 ^ 20) {f g : Nat → Rat} {d c h : Rat} (hh : 0 ≤ h)
    (h0 : ∀ r, r < p + 2 → 0 ≤ f r) (h1 : |∑ r ∈ range (p + 2), f r - 1| ≤ 6 * ((p + 1 : Nat) : Rat) / 2 ^ 53)
    (h2 : ∑ r ∈ range (p + 2), |f r - g r| ≤ ((p + 1 : Nat) : Rat) * (((p + 1 : Nat) : Rat) + 13) / 2 ^ 53)
    (hd : |d - ∑ r ∈ range (p + 2), f r| ≤ (up (p + 2) - 1) * ∑ r ∈ range (p + 2), |f r|)
    (hc : |c - ∑ r ∈ range (p - i), f r| ≤ (up (p - i) - 1) * ∑ r ∈ range (p - i), |f r|) :
    |fl (h * fl (d - c)) - h * ∑ r ∈ Ico (p - i) (p + 2), g r| ≤ (p + 2) * (p + 18) / 2 ^ 53 * h := by
  obtain ⟨F, hF⟩ : ∃ F, F = ∑ r ∈ range (p + 2), f r := ⟨_, rfl⟩
  have a1 : ∑ r ∈ range (p + 2), |f r| = F := by
    rw [hF]; exact sum_congr rfl fun r hr => abs_of_nonneg (h0 r (mem_range.1 hr))
  have a2 : ∑ r ∈ range (p - i), |f r| ≤ F := by
    rw [← a1]
    exact sum_le_sum_of_subset_of_nonneg (fun r hr => mem_range.2 (by have := mem_range.1 hr; omega)) fun _ _ _ => abs_nonneg _
  have sp : ∀ w : Nat → Rat, ∑ r ∈ range (p + 2), w r = ∑ r ∈ range (p - i), w r + ∑ r ∈ Ico (p - i) (p + 2), w r := fun w =>
    (sum_range_add_sum_Ico w (by omega)).symm
  have a3 : ∑ r ∈ Ico (p - i) (p + 2), |f r - g r| ≤ ((p + 1 : Nat) : Rat) * (((p + 1 : Nat) : Rat) + 13) / 2 ^ 53 := by
    refine le_trans ?_ h2
    rw [sp]
    have : 0 ≤ ∑ r ∈ range (p - i), |f r - g r| := sum_nonneg fun _ _ => abs_nonneg _
    linarith
  have a4 : |∑ r ∈ Ico (p - i) (p + 2), f r - ∑ r ∈ Ico (p - i) (p + 2), g r| ≤ ((p + 1 : Nat) : Rat) * (((p + 1 : Nat) : Rat) + 13) / 2 ^ 53 := by
    rw [← sum_sub_distrib]
    exact (abs_sum_le_sum_abs _ _).trans a3
  have a5 : 0 ≤ ∑ r ∈ range (p - i), f r := sum_nonneg fun r hr => h0 r (by have := mem_range.1 hr; omega)
  have a6 : 0 ≤ ∑ r ∈ Ico (p - i) (p + 2), f r := sum_nonneg fun r hr => h0 r (Finset.mem_Ico.1 hr).2
  have hs := sp f
  rw [← hF] at h1 hd hs
  rw [a1] at hd
  have hq : (p : Rat) ≤ 1048576 := by exact_mod_cast (show p ≤ 1048576 by omega)
  have hq0 : (0 : Rat) ≤ p := Nat.cast_nonneg p
  have hF0 : 0 ≤ F := by rw [hs]; linarith
  have hF1 : F ≤ 9 / 8 := by
    have := (abs_le.1 h1).2
    push_cast at this
    norm_num at this ⊢
    linarith
  have hu := up_le (p + 2) (by omega)
  have u0 := one_le_up (p + 2)
  have hd' : |d - F| ≤ 17 / 16 * (p + 2) / 2 ^ 53 * (9 / 8) := by
    refine hd.trans (mul_le_mul ?_ hF1 hF0 (by positivity))
    push_cast at hu
    linarith
  have hc' : |c - ∑ r ∈ range (p - i), f r| ≤ 17 / 16 * (p + 2) / 2 ^ 53 * (9 / 8) := by
    refine hc.trans (mul_le_mul ?_ (a2.trans hF1) (sum_nonneg fun _ _ => abs_nonneg _) (by positivity))
    have := up_mono (show p - i ≤ p + 2 by omega)
    push_cast at hu
    linarith
  obtain ⟨Ff, hFf⟩ : ∃ s, s = ∑ r ∈ Ico (p - i) (p + 2), f r := ⟨_, rfl⟩
  obtain ⟨G, hG⟩ : ∃ s, s = ∑ r ∈ Ico (p - i) (p + 2), g r := ⟨_, rfl⟩
  obtain ⟨C, hC⟩ : ∃ s, s = ∑ r ∈ range (p - i), f r := ⟨_, rfl⟩
  rw [← hC] at hc' a5 hs
  rw [← hFf] at a4 a6 hs
  rw [← hG] at a4 ⊢
  have b1 : |d - c - Ff| ≤ 2 * (17 / 16 * (p + 2) / 2 ^ 53 * (9 / 8)) := by
    have : d - c - Ff = (d - F) - (c - C) := by rw [hs]; ring
    rw [this]
    refine (abs_sub _ _).trans ?_
    linarith
  have b2 : |d - c| ≤ 5 / 4 := by
    have := abs_sub_abs_le_abs_sub (d - c) Ff
    rw [abs_of_nonneg a6] at this
    norm_num at b1
    linarith
  have b3 := hfl.error (d - c)
  have b4 : |fl (d - c) - G| ≤ 2 * (17 / 16 * (p + 2) / 2 ^ 53 * (9 / 8)) + ((p + 1 : Nat) : Rat) * (((p + 1 : Nat) : Rat) + 13) / 2 ^ 53 + 5 / 4 / 2 ^ 53 := by
    have k1 := abs_sub_le (fl (d - c)) (d - c) G
    have k2 := abs_sub_le (d - c) Ff G
    have k3 : |d - c| / 2 ^ 53 ≤ 5 / 4 / 2 ^ 53 := by gcongr
    linarith
  have b5 : |fl (d - c)| ≤ 4 / 3 := by
    have k1 := abs_sub_abs_le_abs_sub (fl (d - c)) (d - c)
    have k3 : |d - c| / 2 ^ 53 ≤ 5 / 4 / 2 ^ 53 := by gcongr
    norm_num at k3 b3
    linarith
  have b6 := hfl.error (h * fl (d - c))
  rw [abs_mul, abs_of_nonneg hh] at b6
  have b7 : h * |fl (d - c)| / 2 ^ 53 ≤ h * (4 / 3) / 2 ^ 53 := by gcongr
  have b8 : |h * fl (d - c) - h * G| ≤ h * (2 * (17 / 16 * (p + 2) / 2 ^ 53 * (9 / 8)) + ((p + 1 : Nat) : Rat) * (((p + 1 : Nat) : Rat) + 13) / 2 ^ 53 + 5 / 4 / 2 ^ 53) := by
    rw [← mul_sub, abs_mul, abs_of_nonneg hh]
    exact mul_le_mul_of_nonneg_left b4 hh
  have b9 := abs_sub_le (fl (h * fl (d - c))) (h * fl (d - c)) (h * G)
  have b10 : h * (2 * (17 / 16 * (p + 2) / 2 ^ 53 * (9 / 8)) + ((p + 1 : Nat) : Rat) * (((p + 1 : Nat) : Rat) + 13) / 2 ^ 53 + 5 / 4 / 2 ^ 53) + h * (4 / 3) / 2 ^ 53 ≤
      (p + 2) * (p + 18) / 2 ^ 53 * h := by
    rw [mul_div_assoc h, ← mul_add, mul_comm]
    refine mul_le_mul_of_nonneg_right ?_ hh
    push_cast
    norm_num
    nlinarith
  linarith

section

variable {k : Knots} {n p : Nat}

theorem evalBasisDegR (hk : k.rmin fl ≤ k.rmax fl) (hfl : RoundsAll fl) :
    ∃ v, k.evalBasisDeg fl (Arr.uninit (k.p + 2)) (k.rmin fl) (k.p + 1) = .ok (v, 0) ∧
      Line v (k.p + 2) (triR fl (uA fl 0) (uB fl 0) uD 1 (k.p + 1)) (k.p + 1) := by
  obtain ⟨v, e, hl⟩ := Knots.triangle_ok (fl := fl) 0 1 (k.p + 1) ((Arr.uninit (k.p + 2)).set 0 1) (k.p + 2) (by omega) rfl
    (by rw [Arr.set_val, if_pos rfl])
  refine ⟨v, ?_, hl⟩
  have hd : decide ((Arr.uninit (k.p + 2) : Arr Rat).size = k.p + 1 + 1) = true := decide_eq_true rfl
  have hc : getIcellAndOffset fl k (k.rmin fl) = .ok (0, 0) := by
    rw [getIcellAndOffset, inside_ok hfl (le_refl _) hk, Res.ok_bind, if_pos (le_refl _)]
    rfl
  rw [Knots.evalBasisDeg, hd, Res.guardAbort_true, Res.ok_bind, hc, Res.ok_bind,
    Arr.wr_ok (show 0 < (Arr.uninit (k.p + 2) : Arr Rat).size from Nat.succ_pos _), Res.ok_bind,
    show ((Arr.uninit (k.p + 2) : Arr Rat).set 0 1).size - 1 = k.p + 1 from rfl, e]
  rfl

theorem edgeIntegralR_ok (hfl : RoundsAll fl) (hk : k.rmin fl ≤ k.rmax fl) (hs : n + 1 + 2 * k.p < 2 ^ 63) (hn : 0 < n)
    (hh : 0 < k.step) (hp' : k.p + 1 < 2 ^ 20) {i : Nat} (hi : i < k.p) :
    ∃ y, |y - k.step * outside (0 : Rat) n n k.p (k.p - 1 - i)| ≤ (k.p + 2) * (k.p + 18) / 2 ^ 53 * k.step ∧
    ∀ {c : Chunk1 Rat}, c.On (n + k.p) → 
    k.edgeIntegral fl (el () 0) (el () (n + k.p - 1)) c i =
      .ok ⟨c.dom, (c.data.set i y).set (n + k.p - 1 - i) y⟩ := by
  obtain ⟨v, e, hl⟩ := evalBasisDegR hk hfl
  obtain ⟨k1, k2, k3⟩ := ubs_lines hfl (le_refl (0 : Rat)) zero_le_one hp'
  obtain ⟨d, e1, hd⟩ := sumArrR_ok hfl (a := v) (m := k.p + 2) (by rw [hl.1]) (fun r hr => hl.2 r (by omega))
  obtain ⟨c, e2, hc⟩ := sumArrR_ok hfl (a := v) (m := k.p - i) (by rw [hl.1]; omega) (fun r hr => hl.2 r (by omega))
  have hn0 : (0 : Rat) < n := by exact_mod_cast hn
  refine ⟨fl (k.step * fl (d - c)), ?_, fun {ch} hch => ?_⟩
  · rw [← uniform_edge hn0 hn hi]
    exact edge_near hfl hi hp' hh.le (fun r hr => k1 r (by omega)) k2 k3 hd hc
  · rw [Knots.edgeIntegral, e, Res.ok_bind, hl.1, e1, Res.ok_bind, e2, Res.ok_bind, One.addInt_el, Res.ok_bind, Nat.zero_add,
      Chunk1.put_ok hch (by omega) (by omega), Res.ok_bind, One.subInt_el (by omega), Res.ok_bind]
    exact Chunk1.put_ok (c := ⟨ch.dom, ch.data.set i _⟩) (N := n + k.p) ⟨hch.1, hch.2⟩ (by omega) (by omega) _

end

/-- The entries with errors. -/
theorem edge_count {n p : Nat} (hpn : p ≤ n) (ε : Rat) : ∑ i ∈ range (n + p), (if p ≤ i ∧ i < n then 0 else ε) = 2 * p * ε := by
  obtain ⟨d, rfl⟩ : ∃ d, n = p + d := ⟨n - p, by omega⟩
  have q1 : ∑ i ∈ range p, (if p ≤ i ∧ i < p + d then 0 else ε) = p * ε := by
    rw [sum_congr rfl (g := fun _ => ε) (fun i hi => by rw [mem_range] at hi; rw [if_neg (by omega)]), sum_const,
      card_range, nsmul_eq_mul]
  have q2 : ∑ i ∈ range d, (if p ≤ p + i ∧ p + i < p + d then 0 else ε) = 0 :=
    sum_eq_zero fun i hi => by rw [mem_range] at hi; exact if_pos ⟨by omega, by omega⟩
  have q3 : ∑ i ∈ range p, (if p ≤ p + d + i ∧ p + d + i < p + d then 0 else ε) = p * ε := by
    rw [sum_congr rfl (g := fun _ => ε) (fun i hi => by rw [mem_range] at hi; rw [if_neg (by omega)]), sum_const,
      card_range, nsmul_eq_mul]
  rw [sum_range_add, sum_range_add, q1, q2, q3]
  ring

/-- Uniform B-splines, not periodic, at least as many cells as the degree, whatever the rounding and the order of
execution: every entry is the step times the integral of the B-spline on the integers, with an error of at most
`(p + 2)(p + 18)·2⁻⁵³` steps for the `p` first and the `p` last ones and without error for the others; the entries sum to
the number of cells times the step up to the sum of these errors. -/
theorem C69_uniform (hfl : RoundsAll fl) {a b : Rat} (hab : a < b) {n p : Nat} (hn : 0 < n) (hn' : n < 2 ^ 31)
    (hp : 0 < p) (hp' : p + 1 < 2 ^ 20) (hpn : p ≤ n) (hres : |a| * n ≤ 2 ^ 46 * (b - a)) {k : Knots} (hk : k = mkKnots fl a b n p)
    (sched : List Nat) (hsched : sched.Perm (List.range p)) (vals : Chunk1 Rat) (hv : vals.On (n + p)) :
    ∃ (c : Chunk1 Rat) (v I : Nat → Rat), k.integrals fl false sched vals = .ok c ∧ c.On (n + p) ∧
      (∀ i, i < n + p → c.data.val i = some (v i) ∧
        IsIntegral (Spec.uniformKnot (0 : Rat) n n p) n p i p (p + n) (I i) ∧
        |v i - k.step * I i| ≤ (if p ≤ i ∧ i < n then 0 else (p + 2) * (p + 18) / 2 ^ 53 * k.step)) ∧
      |∑ i ∈ range (n + p), v i - n * k.step| ≤ 2 * p * ((p + 2) * (p + 18) / 2 ^ 53 * k.step) := by
  obtain ⟨hstep, hlen⟩ := knots_bounds hfl hab hn hn' (show p ≤ 2 ^ 20 by omega) hres
  rw [← hk] at hstep hlen
  have hkp : k.p = p := by rw [hk]; rfl
  have hkn : k.n = n := by rw [hk]; rfl
  have hn0 : (0 : Rat) < n := by exact_mod_cast hn
  have hn1 : (1 : Rat) ≤ n := by exact_mod_cast hn
  have hr : k.rmin fl ≤ k.rmax fl := by
    have := (abs_le.1 hlen).1
    have := mul_le_mul_of_nonneg_right hn1 hstep.le
    linarith
  obtain ⟨ε, hε⟩ : ∃ ε : Rat, ε = (p + 2) * (p + 18) / 2 ^ 53 * k.step := ⟨_, rfl⟩
  have hε0 : 0 ≤ ε := by rw [hε]; positivity
  have hE := uniform_ends (p := p) hn0 hn
  have h1n : ((n : Rat) - 0) / n = 1 := by rw [sub_zero, div_self hn0.ne']
  obtain ⟨c1, e1, h1, h2⟩ := Chunk1.fill_ok hv (by omega) hpn hn (by omega) k.step
  have hedge := fun i (hi : i < k.p) => edgeIntegralR_ok (n := n) (k := k) hfl hr (by omega) hn hstep (by omega) hi
  rw [hkp] at hedge
  choose! y hy1 hy2 using hedge
  obtain ⟨c, e2, k1, k2, k3, k4⟩ := fold_writes_sym (N := n + p) (M := n + p - 1) (q := p)
    (k.edgeIntegral fl (el () 0) (el () (n + p - 1))) y (by omega) (fun c i hc hi => hy2 i hi hc) sched
    (fun i hi => List.mem_range.1 (hsched.mem_iff.1 hi)) c1 h1
  have hval : ∃ v : Nat → Rat, ∀ i, i < n + p → c.data.val i = some (v i) ∧
      |v i - k.step * total (Spec.uniformKnot (0 : Rat) n n p) p n i| ≤ (if p ≤ i ∧ i < n then 0 else ε) := by
    have : ∀ i, ∃ v : Rat, i < n + p → c.data.val i = some v ∧
      |v - k.step * total (Spec.uniformKnot (0 : Rat) n n p) p n i| ≤ (if p ≤ i ∧ i < n then 0 else ε) := by
      intro i
      by_cases h3 : i < p
      · refine ⟨y i, fun hi => ⟨k2 i (hsched.mem_iff.2 (List.mem_range.2 h3)), ?_⟩⟩
        rw [if_neg (by omega), uniform_total_first hn0 hn h3 (by omega), h1n, one_mul, hε]
        exact hy1 i h3
      · by_cases h4 : i < n
        · refine ⟨k.step, fun hi => ⟨?_, ?_⟩⟩
          · rw [k4 i (fun k hk => by have := List.mem_range.1 (hsched.mem_iff.1 hk); omega), h2, if_pos ⟨by omega, h4⟩]
          · rw [if_pos ⟨by omega, h4⟩, uniform_total_inside hn0 hn (by omega) h4, h1n, mul_one, sub_self, abs_zero]
        · refine ⟨y (n + p - 1 - i), fun hi => ?_⟩
          have h5 := k3 (n + p - 1 - i) (hsched.mem_iff.2 (List.mem_range.2 (by omega)))
          have h6 := uniform_total_last hn0 hn hpn (i := n + p - 1 - i) (by omega)
          rw [show n + p - 1 - (n + p - 1 - i) = i by omega] at h5 h6
          refine ⟨h5, ?_⟩
          rw [if_neg (by omega), h6, h1n, one_mul, hε]
          exact hy1 _ (by omega)
    choose v hv using this
    exact ⟨v, hv⟩
  obtain ⟨v, hv'⟩ := hval
  refine ⟨c, v, total (Spec.uniformKnot (0 : Rat) n n p) p n, ?_, k1, fun i hi => ?_, ?_⟩
  · have hsz : BitVec.ofNat 64 k.n + BitVec.ofNat 64 k.p = BitVec.ofNat 64 (n + p) := by rw [hkn, hkp, BitVec.ofNat_add]
    have hg : integralsSize false (BitVec.ofNat 64 (n + p)) (BitVec.ofNat 64 (n + p))
        (BitVec.ofNat 64 (n + p)) = true := by simp [integralsSize]
    rw [Knots.integrals, hv.1, seg_size (by omega), Res.ok_bind]
    simp only [hsz, Bool.false_eq_true, if_false, Nat.sub_zero, hg, Res.guardAbort_true, Res.ok_bind]
    rw [show (el1 0 : Elem Unit) = el () 0 from rfl, ve1_eq, ofSize_nat, Res.ok_bind, Nat.zero_add, hkp, ve1_eq,
      remove_ends (by omega), Res.ok_bind, e1, Res.ok_bind, back_nat () (by omega), Res.ok_bind, One.front, e2]
  · obtain ⟨g1, g2⟩ := hv' i hi
    rw [← hε]
    exact ⟨g1, isIntegral_total hE _ i, g2⟩
  · have hsum : ∑ i ∈ range (n + p), total (Spec.uniformKnot (0 : Rat) n n p) p n i = n := by
      have := Spec.total_periodic hE uniform_rep (fun _ => True) (fun _ => Iff.rfl)
      simp only [if_true] at this
      rw [this, Finset.sum_congr rfl (fun i _ => uniform_width i), Finset.sum_const, Finset.card_range,
        nsmul_eq_mul, h1n, mul_one]
    rw [← hε, ← hsum, sum_mul, ← sum_sub_distrib]
    refine (abs_sum_le_sum_abs _ _).trans ((sum_le_sum (g := fun i => if p ≤ i ∧ i < n then 0 else ε) fun i hi => ?_).trans ?_)
    · rw [mul_comm]
      exact (hv' i (mem_range.1 hi)).2
    · exact (edge_count hpn ε).le

/-- Uniform B-splines, periodic, whatever the rounding: the entry of each basis function is the step, which is the step
times the integral of the basis function on the integers, and the repeated entries are zero. -/
theorem C69_uniform_periodic {n p : Nat} (hn : 0 < n) (hp : 0 < p) (hs : n + 1 + 2 * p < 2 ^ 63) {k : Knots} (hkp : k.p = p) (hkn : k.n = n)
    (sched : List Nat) (N : Nat) (hN : N = n ∨ N = n + p) (vals : Chunk1 Rat) (hv : vals.On N) :
    ∃ (c : Chunk1 Rat) (J : Nat → Rat), k.integrals fl true sched vals = .ok c ∧ c.On N ∧
      (∀ j, j < n + p → IsIntegral (Spec.uniformKnot (0 : Rat) n n p) n p j p (p + n) (J j)) ∧
      (∀ i, i < n → c.data.val i = some (k.step * ∑ j ∈ Finset.range (n + p), if j % n = i then J j else 0)) ∧
      ∀ i, n ≤ i → i < N → c.data.val i = some 0 := by
  have hn0 : (0 : Rat) < n := by exact_mod_cast hn
  have h1n : ((n : Rat) - 0) / n = 1 := by rw [sub_zero, div_self hn0.ne']
  have hE := uniform_ends (p := p) hn0 hn
  have hJ : ∀ i, i < n → (∑ j ∈ Finset.range (n + p), if j % n = i then total (Spec.uniformKnot (0 : Rat) n n p) p n j else 0) = 1 := by
    intro i hi
    rw [Spec.total_periodic hE uniform_rep (fun j => j % n = i) (fun j => by simp), Finset.sum_eq_single i]
    · rw [if_pos (Nat.mod_eq_of_lt hi), uniform_width, h1n]
    · intro j hj hne
      rw [if_neg (by rw [Nat.mod_eq_of_lt (Finset.mem_range.1 hj)]; exact hne)]
    · intro hx; exact absurd (Finset.mem_range.2 hi) hx
  obtain ⟨c1, e1, h1, h2⟩ := Chunk1.fill_ok hv (by omega) (Nat.zero_le n) hn (by omega) k.step
  have hsz : BitVec.ofNat 64 n + BitVec.ofNat 64 p = BitVec.ofNat 64 (n + p) := by rw [BitVec.ofNat_add]
  have hg := sizeGuard true (n := n) (p := p) (N := N) (by simpa using hN)
  rw [← BitVec.ofNat_add, Nat.add_comm p n] at hg
  simp only [if_true] at hg
  have h0 : (BitVec.ofNat 64 n + 0 : U64) = BitVec.ofNat 64 n := by simp
  rw [h0] at hg
  have key : k.integrals fl true sched vals =
      if BitVec.ofNat 64 N = BitVec.ofNat 64 (n + p) then c1.fillSub (seg () n (n + p)) 0 else .ok c1 := by
    rw [Knots.integrals, hv.1, seg_size (by omega), Res.ok_bind]
    simp only [hkn, hkp, hsz, if_true, Nat.sub_zero, hg, Res.guardAbort_true, Res.ok_bind]
    rw [show (el1 0 : Elem Unit) = el () 0 from rfl, ve1_eq, ve1_eq, ofSize_nat, Res.ok_bind, Nat.zero_add, One.takeFirst,
      Res.ok_bind, Nat.zero_add, e1, Res.ok_bind, ve1_eq, One.takeLast () (by omega) (by omega), Nat.add_sub_cancel]
    rfl
  rw [key]
  by_cases hNn : N = n + p
  · subst hNn
    rw [if_pos rfl]
    obtain ⟨c, e2, k1, k2⟩ := Chunk1.fill_ok h1 (by omega) (show n ≤ n + p by omega) (by omega)
      (le_refl _) 0
    refine ⟨c, _, e2, k1, fun j _ => isIntegral_total hE _ j, fun i hi => ?_, fun i hi hi' => ?_⟩
    · rw [k2, if_neg (by omega), h2, if_pos ⟨by omega, hi⟩, hJ i hi, mul_one]
    · rw [k2, if_pos ⟨hi, hi'⟩]
  · have hNn' : N = n := by omega
    subst hNn'
    rw [if_neg (by
      intro hz
      have := congrArg BitVec.toNat hz
      rw [BitVec.toNat_ofNat, BitVec.toNat_ofNat, Nat.mod_eq_of_lt (by omega),
        Nat.mod_eq_of_lt (by omega)] at this
      omega)]
    refine ⟨c1, _, rfl, h1, fun j _ => isIntegral_total hE _ j, fun i hi => ?_, fun i hi hi' => absurd hi' (by omega)⟩
    rw [h2, if_pos ⟨by omega, hi⟩, hJ i hi, mul_one]

/-! ## Integrals of splines -/

/-- The computed sum of the products of coefficients and values. -/
theorem integrateLoop_ok (hfl : RoundsAll fl) {ch : Chunk1 Rat} {N : Nat} (hN : N < 2 ^ 39) (hc : ch.On N) {v w ε : Nat → Rat}
    (hv : ∀ i, i < N → ch.data.val i = some (v i)) (hw : ∀ i, i < N → |v i - w i| ≤ ε i) (c : Nat → Rat) :
    ∃ y, Rounded.integrateLoop fl ch (coefsOf N c) = .ok y ∧
      |y - ∑ i ∈ range N, c i * w i| ≤
        (17 / 16 * (N + 1) / 2 ^ 53) * ∑ i ∈ range N, |c i| * |w i| + 2 * ∑ i ∈ range N, |c i| * ε i := by
  obtain ⟨y, e, -, h2⟩ := forLoop_inv (f := fun i y => do
      let j ← uid1 (el () (0 + i))
      let c ← coefsOf N c [j]
      let w ← ch.get (el () (0 + i))
      Res.ok (fl (y + fl (c * w))))
    (fun i y => |∑ k ∈ range i, c k * v k| ≤ ∑ k ∈ range i, |c k * v k| ∧
      |y - ∑ k ∈ range i, c k * v k| ≤ (up (1 + i) - 1) * ∑ k ∈ range i, |c k * v k|) N 0 (0 : Rat) (by simp)
    (by
      rintro i y - hi ⟨h1, h2⟩
      rw [Nat.zero_add] at hi
      rw [Nat.zero_add, NUBS.uid1_el, Res.ok_bind, coefsOf_ok hi (by omega), Res.ok_bind,
        Chunk1.get_ok hc (by omega) hi (hv i hi), Res.ok_bind]
      refine ⟨_, rfl, ?_⟩
      rw [sum_range_succ, sum_range_succ]
      exact sum_step hfl h1 h2 (((Near.refl (c i * v i)).fl hfl).mono (show 0 + 1 ≤ 1 + i by omega)))
  refine ⟨y, ?_, ?_⟩
  · rw [Rounded.integrateLoop, hc.1, hostForEach1_seg (Nat.zero_le _) (by omega), Nat.sub_zero]
    exact e
  · rw [Nat.zero_add] at h2
    have hu := up_le (1 + N) (by omega)
    have u0 := one_le_up (1 + N)
    have u1 := up_small (1 + N) (by omega)
    have hA : ∑ k ∈ range N, |c k * v k| ≤ ∑ i ∈ range N, |c i| * |w i| + ∑ i ∈ range N, |c i| * ε i := by
      rw [← sum_add_distrib]
      refine sum_le_sum fun i hi => ?_
      rw [abs_mul, ← mul_add]
      refine mul_le_mul_of_nonneg_left ?_ (abs_nonneg _)
      have := abs_sub_abs_le_abs_sub (v i) (w i)
      have := hw i (mem_range.1 hi)
      linarith
    have hB : |∑ i ∈ range N, c i * v i - ∑ i ∈ range N, c i * w i| ≤ ∑ i ∈ range N, |c i| * ε i := by
      rw [← sum_sub_distrib]
      refine (abs_sum_le_sum_abs _ _).trans (sum_le_sum fun i hi => ?_)
      rw [← mul_sub, abs_mul]
      exact mul_le_mul_of_nonneg_left (hw i (mem_range.1 hi)) (abs_nonneg _)
    have h3 := abs_sub_le y (∑ i ∈ range N, c i * v i) (∑ i ∈ range N, c i * w i)
    have hW : 0 ≤ ∑ i ∈ range N, |c i| * |w i| := sum_nonneg fun _ _ => by positivity
    have hE : 0 ≤ ∑ i ∈ range N, |c i| * ε i := (abs_nonneg _).trans hB
    have h4 : (up (1 + N) - 1) * ∑ k ∈ range N, |c k * v k| ≤
        (up (1 + N) - 1) * (∑ i ∈ range N, |c i| * |w i| + ∑ i ∈ range N, |c i| * ε i) :=
      mul_le_mul_of_nonneg_left hA (by linarith)
    have h5 : (up (1 + N) - 1) * ∑ i ∈ range N, |c i| * |w i| ≤ (17 / 16 * (N + 1) / 2 ^ 53) * ∑ i ∈ range N, |c i| * |w i| := by
      refine mul_le_mul_of_nonneg_right ?_ hW
      push_cast at hu
      linarith
    have h6 : (up (1 + N) - 1) * ∑ i ∈ range N, |c i| * ε i ≤ 1 * ∑ i ∈ range N, |c i| * ε i :=
      mul_le_mul_of_nonneg_right (by linarith) hE
    rw [mul_add] at h4
    linarith

/-- Splines on non-uniform knots, not periodic, whatever the rounding and the order of execution: `integrate` returns the
integral of the spline with an error of at most `17/16 (N + 9) 2⁻⁵³` times the length of the domain and the bound `M` of the
`N` coefficients. -/
theorem C69_integrate_non_uniform (hfl : RoundsAll fl) (p : Nat) (hp : 0 < p) (breaks : List Rat) (hb : GoodBreaks breaks)
    (hs : breaks.length + 2 * p < 2 ^ 39) :
    ∃ u t, NUBS.mk' p false breaks = .ok u ∧ Monotone t ∧
      (∀ k, k < breaks.length + 2 * p → u.knots.coordinate (el1 (BitVec.ofNat 64 k)) = .ok (t k)) ∧
      ∀ n, n = breaks.length - 1 → ∀ sched : List U64,
        sched.Perm ((List.range (n + p)).map (BitVec.ofNat 64)) → ∀ (c : Nat → Rat) (M : Rat), (∀ i, i < n + p → |c i| ≤ M) →
          ∃ y I, Rounded.integrate fl u sched (seg () 0 (n + p)) (coefsOf (n + p) c) = .ok y ∧
            IsIntegralOf t (t (p + n)) p (p + n) (splineValue t p n c) I ∧
            |y - I| ≤ 17 / 16 * (((n + p : Nat) : Rat) + 9) / 2 ^ 53 * (M * (t (p + n) - t p)) := by
  have h2 := hb.two
  obtain ⟨u, t, e, hper, hu, hk⟩ := NUBS.mk'_is hp false hb.two (by omega) hb.sorted hb.lt
  obtain ⟨g0, g1⟩ := goodEnds hb hk
  refine ⟨u, t, e, hu.mono, fun k hk => hu.coord k (by omega), ?_⟩
  rintro n rfl sched hsched c M hM
  have hE : Spec.Ends t p (breaks.length - 1) := ⟨hu.mono, by omega, g0, g1⟩
  have hcl := hk.clamped rfl
  have hsz : (BitVec.ofNat 64 (breaks.length - 1 + p)).toNat = breaks.length - 1 + p := by
    rw [BitVec.toNat_ofNat]; omega
  obtain ⟨ch, e1, h1, h3, -⟩ := nubs_integralsR (fl := fl) hu (N := breaks.length - 1 + p) (by simp [hper])
    (sched := sched) (by simpa [hper] using hsched) (vals := ⟨seg () 0 (breaks.length - 1 + p), Arr.uninit (breaks.length - 1 + p)⟩)
    ⟨rfl, rfl⟩
  simp only [hper, Bool.false_eq_true, if_false] at h3
  have hsum : ∑ i ∈ Finset.range (breaks.length - 1 + p), (t (i + p + 1) - t i) / ((p + 1 : Nat) : Rat) =
      t (p + (breaks.length - 1)) - t p := by
    refine Spec.width_sum t p _ fun k hk => ?_
    rw [(hcl k hk).1, Nat.add_comm _ p, (hcl k hk).2]
  obtain ⟨y, e2, h4⟩ := integrateLoop_ok hfl (N := breaks.length - 1 + p) (by omega) h1 h3
    (w := fun i => (t (i + p + 1) - t i) / ((p + 1 : Nat) : Rat)) (fun i _ => widthR_near hfl hu.mono i) c
  refine ⟨y, _, ?_, isIntegralOf_spline hE c, ?_⟩
  · rw [Rounded.integrate, seg_size (by omega), Res.ok_bind, Nat.sub_zero, hsz, e1, Res.ok_bind, e2]
  · have hW : ∑ i ∈ range (breaks.length - 1 + p), |c i| * ((t (i + p + 1) - t i) / ((p + 1 : Nat) : Rat)) ≤
        M * (t (p + (breaks.length - 1)) - t p) := by
      rw [← hsum, mul_sum]
      refine sum_le_sum fun i hi => mul_le_mul_of_nonneg_right (hM i (mem_range.1 hi)) ?_
      have := hu.mono (show i ≤ i + p + 1 by omega)
      have : 0 ≤ t (i + p + 1) - t i := sub_nonneg.2 this
      positivity
    have e3 : ∑ i ∈ range (breaks.length - 1 + p), |c i| * |(t (i + p + 1) - t i) / ((p + 1 : Nat) : Rat)| =
        ∑ i ∈ range (breaks.length - 1 + p), |c i| * ((t (i + p + 1) - t i) / ((p + 1 : Nat) : Rat)) := by
      refine sum_congr rfl fun i _ => ?_
      have := hu.mono (show i ≤ i + p + 1 by omega)
      have : 0 ≤ t (i + p + 1) - t i := sub_nonneg.2 this
      rw [abs_of_nonneg (a := (t (i + p + 1) - t i) / ((p + 1 : Nat) : Rat)) (by positivity)]
    have e4 : ∑ i ∈ range (breaks.length - 1 + p), |c i| * (4 / 2 ^ 53 * ((t (i + p + 1) - t i) / ((p + 1 : Nat) : Rat))) =
        4 / 2 ^ 53 * ∑ i ∈ range (breaks.length - 1 + p), |c i| * ((t (i + p + 1) - t i) / ((p + 1 : Nat) : Rat)) := by
      rw [mul_sum]; exact sum_congr rfl fun i _ => by ring
    rw [sum_congr rfl (fun i hi => by rw [Spec.total_clamped hE hcl (mem_range.1 hi)])]
    rw [e3, e4] at h4
    have := mul_le_mul_of_nonneg_left hW (show 0 ≤ 17 / 16 * (((breaks.length - 1 + p : Nat) : Rat) + 1) / 2 ^ 53 + 8 / 2 ^ 53 by positivity)
    have hML : 0 ≤ M * (t (p + (breaks.length - 1)) - t p) :=
      mul_nonneg ((abs_nonneg _).trans (hM 0 (by omega))) (sub_nonneg.2 (hu.mono (by omega)))
    rw [show 17 / 16 * (((breaks.length - 1 + p : Nat) : Rat) + 9) / 2 ^ 53 =
      17 / 16 * (((breaks.length - 1 + p : Nat) : Rat) + 1) / 2 ^ 53 + 8 / 2 ^ 53 + (1 / 2) / 2 ^ 53 by ring, add_mul]
    linarith

theorem uniform_total_nonneg {n p : Nat} (hn : 0 < n) (hpn : p ≤ n) {i : Nat} (hi : i < n + p) :
    0 ≤ total (Spec.uniformKnot (0 : Rat) n n p) p n i := by
  have hn0 : (0 : Rat) < n := by exact_mod_cast hn
  have hout : ∀ j, j < p → 0 ≤ outside (0 : Rat) n n p (p - 1 - j) := by
    intro j hj
    rw [← uniform_edge hn0 hn hj]
    have hl := fun j r (_ : j < p + 1) (hr : r ≤ j) => uLR (le_refl (0 : Rat)) zero_le_one hr
    have := (tri_lines (L := uL 0) (R := uR 0) (L' := uL 0) (R' := uR 0) (η := fun _ => 0) (p := p + 1)
      (fun j r h1 h2 => (hl j r h1 h2).1) (fun j r h1 h2 => (hl j r h1 h2).2.1) (fun j r h1 h2 => (hl j r h1 h2).2.2)
      (fun j r h1 h2 => (hl j r h1 h2).1) (fun j r h1 h2 => (hl j r h1 h2).2.1) (fun j r h1 h2 => (hl j r h1 h2).2.2)
      (fun j r _ _ => by simp) (p + 1) (le_refl _)).1
    exact sum_nonneg fun r hr => this r (by have := (Finset.mem_Ico.1 hr).2; omega)
  have h1 : 0 ≤ ((n : Rat) - 0) / n := by rw [sub_zero, div_self hn0.ne']; exact zero_le_one
  by_cases h3 : i < p
  · rw [uniform_total_first hn0 hn h3 (by omega)]
    exact mul_nonneg h1 (hout i h3)
  · by_cases h4 : i < n
    · rw [uniform_total_inside hn0 hn (by omega) h4]; exact h1
    · have h6 := uniform_total_last hn0 hn hpn (i := n + p - 1 - i) (by omega)
      rw [show n + p - 1 - (n + p - 1 - i) = i by omega] at h6
      rw [h6]
      exact mul_nonneg h1 (hout _ (by omega))

/-- Splines on uniform knots, not periodic, at least as many cells as the degree, whatever the rounding and the order of
execution: `integrate` returns the step times the integral of the spline on the integers, with an error relative to the
number of cells, the step and the bound `M` of the coefficients. -/
theorem C69_integrate_uniform (hfl : RoundsAll fl) {a b : Rat} (hab : a < b) {n p : Nat} (hn : 0 < n) (hn' : n < 2 ^ 31)
    (hp : 0 < p) (hp' : p + 1 < 2 ^ 20) (hpn : p ≤ n) (hres : |a| * n ≤ 2 ^ 46 * (b - a)) {k : Knots} (hk : k = mkKnots fl a b n p)
    (sched : List Nat) (hsched : sched.Perm (List.range p)) (c : Nat → Rat) (M : Rat) (hM : ∀ i, i < n + p → |c i| ≤ M) :
    ∃ y I, k.integrate fl false sched (seg () 0 (n + p)) (coefsOf (n + p) c) = .ok y ∧
      IsIntegralOf (Spec.uniformKnot (0 : Rat) n n p) (Spec.uniformKnot (0 : Rat) n n p (p + n)) p (p + n)
        (splineValue (Spec.uniformKnot (0 : Rat) n n p) p n c) I ∧
      |y - k.step * I| ≤ (17 / 16 * (((n + p : Nat) : Rat) + 1) * n + 4 * p * ((p + 2) * (p + 18))) / 2 ^ 53 * (M * k.step) := by
  have hsz : (BitVec.ofNat 64 (n + p)).toNat = n + p := by
    rw [BitVec.toNat_ofNat]; omega
  have hn0 : (0 : Rat) < n := by exact_mod_cast hn
  have h1n : ((n : Rat) - 0) / n = 1 := by rw [sub_zero, div_self hn0.ne']
  have hE := uniform_ends (p := p) hn0 hn
  obtain ⟨ch, v, I, e1, h1, h2, -⟩ := C69_uniform hfl hab hn hn' hp hp' hpn hres hk sched hsched
    ⟨seg () 0 (n + p), Arr.uninit (n + p)⟩ ⟨rfl, rfl⟩
  have hlast : Spec.uniformKnot (0 : Rat) n n p (p + n) ≤ n := by
    rw [uniformKnot_step p n, uniformKnot_first, h1n, zero_add, mul_one]
  have hI : ∀ i, i < n + p → I i = total (Spec.uniformKnot (0 : Rat) n n p) p n i := fun i hi =>
    (h2 i hi).2.1.unique hE.mono hlast (isIntegral_total hE _ i)
  obtain ⟨hstep, -⟩ := knots_bounds hfl hab hn hn' (show p ≤ 2 ^ 20 by omega) hres
  rw [← hk] at hstep
  have hM0 : 0 ≤ M := (abs_nonneg _).trans (hM 0 (by omega))
  obtain ⟨ε, hε⟩ : ∃ ε : Rat, ε = (p + 2) * (p + 18) / 2 ^ 53 * k.step := ⟨_, rfl⟩
  have hε0 : 0 ≤ ε := by rw [hε]; positivity
  obtain ⟨y, e2, h4⟩ := integrateLoop_ok hfl (N := n + p) (by omega) h1 (fun i hi => (h2 i hi).1)
    (w := fun i => k.step * total (Spec.uniformKnot (0 : Rat) n n p) p n i)
    (ε := fun i => if p ≤ i ∧ i < n then 0 else ε)
    (fun i hi => by rw [← hI i hi, hε]; exact (h2 i hi).2.2) c
  refine ⟨y, _, ?_, isIntegralOf_spline hE c, ?_⟩
  · rw [Knots.integrate, seg_size (by omega), Res.ok_bind, Nat.sub_zero, hsz, e1, Res.ok_bind, e2]
  · have hsum : ∑ i ∈ range (n + p), total (Spec.uniformKnot (0 : Rat) n n p) p n i = n := by
      have := Spec.total_periodic hE uniform_rep (fun _ => True) (fun _ => Iff.rfl)
      simp only [if_true] at this
      rw [this, Finset.sum_congr rfl (fun i _ => uniform_width i), Finset.sum_const, Finset.card_range,
        nsmul_eq_mul, h1n, mul_one]
    have hW : ∑ i ∈ range (n + p), |c i| * |k.step * total (Spec.uniformKnot (0 : Rat) n n p) p n i| ≤ M * (k.step * n) := by
      have e : M * (k.step * n) = ∑ i ∈ range (n + p), M * (k.step * total (Spec.uniformKnot (0 : Rat) n n p) p n i) := by
        rw [← mul_sum, ← mul_sum, hsum]
      rw [e]
      refine sum_le_sum fun i hi => ?_
      have h0 := mul_nonneg hstep.le (uniform_total_nonneg hn hpn (mem_range.1 hi))
      rw [abs_of_nonneg h0]
      exact mul_le_mul_of_nonneg_right (hM i (mem_range.1 hi)) h0
    have hW2 : ∑ i ∈ range (n + p), |c i| * (if p ≤ i ∧ i < n then 0 else ε) ≤ M * (2 * p * ε) := by
      rw [← edge_count hpn ε, mul_sum]
      refine sum_le_sum fun i hi => mul_le_mul_of_nonneg_right (hM i (mem_range.1 hi)) ?_
      split
      · exact le_refl _
      · exact hε0
    have e3 : ∑ i ∈ range (n + p), c i * (k.step * total (Spec.uniformKnot (0 : Rat) n n p) p n i) =
        k.step * ∑ i ∈ range (n + p), c i * total (Spec.uniformKnot (0 : Rat) n n p) p n i := by
      rw [mul_sum]; exact sum_congr rfl fun i _ => by ring
    rw [e3] at h4
    have k1 := mul_le_mul_of_nonneg_left hW (show 0 ≤ 17 / 16 * (((n + p : Nat) : Rat) + 1) / 2 ^ 53 by positivity)
    refine h4.trans ((add_le_add k1 (mul_le_mul_of_nonneg_left hW2 zero_le_two)).trans (le_of_eq ?_))
    rw [hε]
    ring

/-- The integrals computed for quadratic splines on the break points 0, 1 and 3 are not exact: the first one is not `1/3`. -/
theorem C69_not_exact : (do
    let u ← NUBS.mk' 2 false [(0 : Rat), 1, 3]
    let c ← Rounded.integrals round53 u [0, 1, 2, 3] ⟨seg () 0 4, Arr.uninit 4⟩
    let v ← c.data.rd 0
    let w ← c.data.rd 1
    Res.ok (decide (v = 1 / 3), decide (w = 1))) = .ok (false, true) := by
  decide +kernel

example : ∃ u, NUBS.mk' 3 false [(0 : Rat), 1, 3, 4, 6, 6, 7] = .ok u ∧ ∃ y I,
    Rounded.integrate round53 u [8, 0, 1, 2, 3, 4, 5, 6, 7] (seg () 0 9) (coefsOf 9 fun i => if i = 2 then -1 else 1 / 2) = .ok y ∧
      |y - I| ≤ 1 / 2 ^ 45 := by
  obtain ⟨u, t, e, -, k1, k2⟩ := C69_integrate_non_uniform round53_all 3 (by norm_num)
    [(0 : Rat), 1, 3, 4, 6, 6, 7] ⟨by decide, (isSorted_iff _).1 (by decide +kernel), by decide +kernel, by decide +kernel⟩ (by decide)
  obtain ⟨y, I, e1, -, e2⟩ := k2 6 rfl [8, 0, 1, 2, 3, 4, 5, 6, 7] (by decide) (fun i => if i = 2 then -1 else 1 / 2) 1
    (fun i _ => by split <;> norm_num)
  refine ⟨u, e, y, I, e1, e2.trans ?_⟩
  have h : ∀ k x, k < 13 → u.knots.coordinate (el1 (BitVec.ofNat 64 k)) = .ok x → t k = x := fun k x hk hx =>
    (Res.ok.inj ((k1 k hk).symm.trans hx))
  have h2 : (NUBS.mk' 3 false [(0 : Rat), 1, 3, 4, 6, 6, 7] >>= fun u => do
      let x ← u.knots.coordinate (el1 (BitVec.ofNat 64 3))
      let y ← u.knots.coordinate (el1 (BitVec.ofNat 64 9))
      Res.ok (x, y)) = .ok (0, 7) := by decide +kernel
  rw [e, Res.ok_bind, k1 3 (by decide), Res.ok_bind, k1 9 (by decide), Res.ok_bind] at h2
  have h3 := Prod.ext_iff.1 (Res.ok.inj h2)
  rw [show t (3 + 6) = 7 from h3.2, show t 3 = 0 from h3.1]
  norm_num

example : ∃ y I, (mkKnots round53 0 (round53 (31 / 10)) 10 3).integrate round53 false [2, 0, 1] (seg () 0 13)
      (coefsOf 13 fun i => if i = 2 then -1 else 1 / 2) = .ok y ∧
    |y - (mkKnots round53 0 (round53 (31 / 10)) 10 3).step * I| ≤ 1 / 2 ^ 41 := by
  obtain ⟨y, I, e, -, h⟩ := C69_integrate_uniform (a := 0) (b := round53 (31 / 10)) (n := 10) (p := 3) round53_all (by decide +kernel)
    (by norm_num) (by norm_num) (by norm_num) (by norm_num) (by norm_num) (by norm_num; decide +kernel) rfl [2, 0, 1] (by decide)
    (fun i => if i = 2 then -1 else 1 / 2) 1 (fun i _ => by split <;> norm_num)
  refine ⟨y, I, e, h.trans ?_⟩
  have hs : (mkKnots round53 0 (round53 (31 / 10)) 10 3).step ≤ 1 := by decide +kernel
  have h0 : 0 ≤ (mkKnots round53 0 (round53 (31 / 10)) 10 3).step := by decide +kernel
  norm_num
  linarith

end DDC.Props
