import Verif.Props.C41
import Verif.Props.C10
import Verif.Props.C08
import Verif.Model.BuilderDomains

/-!
# C48: the domains of the derivatives

* `C48_domain`: the domain given for the derivatives is the domain of the values with the dimension of interest
  replaced by `Deriv<…>`, from `1` on and with the number of values of the closure.
* `C48_batch`: its other dimensions are the batch dimensions, in the same order.
* `C48_spline`, `C48_spline_tr`: the same for the coefficients.
* `C48_mismatch`: a domain that is not the interpolation mesh along the dimension of interest is rejected.
* `C48_passed_back_partial`: chunks on these domains can be passed back to the builder (they meet the
  hypotheses of `C41_interpolates_partial`) when the degree is odd or the closure is not HERMITE.
  Missing because false: `C48_even` says that the builder aborts in all the other cases, since it wants the
  first index to be `0`.
-/

set_option linter.unusedSectionVars false

namespace DDC.Props

open Tup Dom Spec Builder

variable {τ : Type} [DecidableEq τ]

/-- The tags `l` with `t2` in the place of `t1`. -/
def renamed (t1 t2 : τ) (l : List τ) : List τ := l.map fun q => if q = t1 then t2 else q

theorem renamed_filter {t1 t2 : τ} {l : List τ} (h : t2 ∉ l ∨ t2 = t1) :
    (renamed t1 t2 l).filter (fun x => decide (x ∉ [t2])) = l.filter (fun x => decide (x ∉ [t1])) := by
  induction l with
  | nil => rfl
  | cons q l ih =>
    have ih := ih (h.imp (fun h hq => h (List.mem_cons_of_mem _ hq)) id)
    rw [renamed, List.map_cons, ← renamed]
    by_cases e : q = t1
    · subst e
      simpa using ih
    · have : q ≠ t2 := by
        rcases h with h | h
        · rintro rfl; exact h (by simp)
        · rw [h]; exact e
      simpa [e, this] using ih

/-- After a replacement, the other dimensions are the same. -/
theorem replaced_batch {a r : Dom τ} (ha : Valid a) (hr : Valid r) {t1 t2 : τ} (hnew : t2 ∉ tags a ∨ t2 = t1)
    (ht : tags r = renamed t1 t2 (tags a)) (hg : ∀ q ∈ tags a, q ≠ t1 → get q r = get q a) :
    removeDimsOf r [t2] = removeDimsOf a [t1] := by
  have hmem : ∀ q, q ∈ TypeSeq.remove (tags a) [t1] → q ∈ tags a ∧ q ≠ t1 := by
    intro q hq
    rw [TypeSeq.remove_eq] at hq
    simpa using hq
  have htag : TypeSeq.remove (tags r) [t2] = TypeSeq.remove (tags a) [t1] := by
    rw [TypeSeq.remove_eq, TypeSeq.remove_eq, ht, renamed_filter hnew]
  have hmem' : ∀ q, q ∈ TypeSeq.remove (tags a) [t1] → q ∈ tags r := by
    intro q hq
    rw [← htag, TypeSeq.remove_eq] at hq
    exact (List.mem_filter.1 hq).1
  have hnd : (TypeSeq.remove (tags a) [t1]).Nodup := by
    rw [TypeSeq.remove_eq]
    exact ha.1.filter _
  obtain ⟨x, x1, x2, x3⟩ := ofDomains_ok (ds := [a]) hnd (by simpa using ha.1)
    (fun q hq => ownedOnce_singleton (hmem q hq).1)
  obtain ⟨y, y1, y2, y3⟩ := ofDomains_ok (ds := [r]) hnd (by simpa using hr.1)
    (fun q hq => ownedOnce_singleton (hmem' q hq))
  rw [removeDimsOf, removeDimsOf, htag, x1, y1]
  congr 1
  refine ext_get (by rw [y2, x2]) (by rw [y2]; exact hnd) fun q hq => ?_
  rw [y2] at hq
  rw [y3 q hq r (by simp) (hmem' q hq), x3 q hq a (by simp) (hmem q hq).1, hg q (hmem q hq).1 (hmem q hq).2]

/-- The domain of the values: it has the dimension of interest, on which it is the interpolation mesh. -/
structure BatchOf (T : BuilderTags τ) (interp d : Dom τ) : Prop where
  valid : Valid d
  mem : T.interp ∈ tags d
  noBspl : T.bspl ∉ tags d
  noDeriv : T.deriv ∉ tags d
  mesh : ∃ v, interp = [(T.interp, v)] ∧ get T.interp d = .ok v

theorem card_one {q : τ} {v : U64 × U64} : card [(q, v)] = v.2.toNat - v.1.toNat := by
  simp [card, len, lo, hi]

theorem batchedInterpolation_ok {T : BuilderTags τ} {interp d : Dom τ} (h : BatchOf T interp d) :
    T.batchedInterpolation interp d = .ok d := by
  obtain ⟨v, rfl, hv⟩ := h.mesh
  obtain ⟨r, r1, r2, r3, r4⟩ := (C10_select [T.interp] (by simp) d h.valid).1 (by simpa using h.mem)
  have er : r = [(T.interp, v)] := by
    refine ext_get (by rw [r3]; rfl) (by rw [r3]; simp) fun q hq => ?_
    rw [r3] at hq
    rw [r4 q hq]
    obtain rfl : q = T.interp := by simpa using hq
    rw [hv]; simp
  rw [BuilderTags.batchedInterpolation, r1, Res.ok_bind, er]
  rw [er] at r2
  rw [(C08_eq_equiv _ _ _ r2 r2 r2 (List.Perm.refl _) (List.Perm.refl _) (by rw [card_one]; omega) (by rw [card_one]; omega)
    (by rw [card_one]; omega)).1]
  rfl

/-- A domain that is not the interpolation mesh in the dimension of interest: all five functions stop on an
assertion. -/
theorem C48_mismatch {T : BuilderTags τ} {d : Dom τ} {v w : U64 × U64} (hd : Valid d) (hmem : T.interp ∈ tags d)
    (hv : get T.interp d = .ok v) (hw : Valid [(T.interp, w)])
    (hne : ¬SamePoints [(T.interp, w)] [(T.interp, v)]) (full : Dom τ) (rows : U64) (nbv : Nat) :
    T.batchedInterpolation [(T.interp, w)] d = .abort ∧ T.batch [(T.interp, w)] d = .abort ∧
      T.batchedSpline [(T.interp, w)] full d = .abort ∧ T.batchedSplineTr [(T.interp, w)] full d rows = .abort ∧
      T.batchedDerivs [(T.interp, w)] d nbv = .abort := by
  obtain ⟨r, r1, r2, r3, r4⟩ := (C10_select [T.interp] (by simp) d hd).1 (by simpa using hmem)
  have er : r = [(T.interp, v)] := by
    refine ext_get (by rw [r3]; rfl) (by rw [r3]; simp) fun q hq => ?_
    rw [r3] at hq
    rw [r4 q hq]
    obtain rfl : q = T.interp := by simpa using hq
    rw [hv]; simp
  subst er
  obtain ⟨b, e1, -, e2⟩ := C08_eq_iff _ _ hw r2 (List.Perm.refl _) (by rw [card_one]; omega) (by rw [card_one]; omega)
  obtain rfl : b = false := by
    cases b with
    | false => rfl
    | true => exact absurd (e2.1 rfl) hne
  have e : T.batchedInterpolation [(T.interp, w)] d = .abort := by
    rw [BuilderTags.batchedInterpolation, r1, Res.ok_bind, e1]
    rfl
  refine ⟨e, ?_, ?_, ?_, ?_⟩
  · rw [BuilderTags.batch, e]; rfl
  · rw [BuilderTags.batchedSpline, e]; rfl
  · rw [BuilderTags.batchedSplineTr, e]; rfl
  · rw [BuilderTags.batchedDerivs, e]; rfl

example : BuilderTags.batch ⟨'x', 'b', 'd'⟩ [('x', (0, 4))] [('y', (0, 2)), ('x', (1, 5))] = .abort :=
  (C48_mismatch (T := ⟨'x', 'b', 'd'⟩) (v := (1, 5)) (w := (0, 4)) (d := [('y', (0, 2)), ('x', (1, 5))])
    ⟨by decide, by decide⟩ (by decide) rfl ⟨by decide, by decide⟩
    (fun h => absurd ((h [('x', 0)] (List.Perm.refl _)).1 (by decide)) (by decide)) [] 0 0).2.1

/-- The batch domain: the other dimensions, in the same order. -/
theorem C48_batch_domain {T : BuilderTags τ} {interp d : Dom τ} (h : BatchOf T interp d) :
    ∃ b, T.batch interp d = .ok b ∧ removeDimsOf d [T.interp] = .ok b ∧ Valid b ∧
      (∀ q, q ∈ tags b ↔ q ∈ tags d ∧ q ≠ T.interp) ∧ (tags b).Sublist (tags d) ∧
      ∀ q ∈ tags b, get q b = get q d := by
  obtain ⟨b, b1, b2, b3, b4, b5⟩ := C10_remove_dims d h.valid [T.interp]
  exact ⟨b, by rw [BuilderTags.batch, batchedInterpolation_ok h, Res.ok_bind, b1], b1, b2, by simpa using b3, b4, b5⟩

theorem valid_one {t : τ} {x y : U64} (h1 : x.toNat ≤ y.toNat) (h2 : y.toNat - x.toNat < 2 ^ 63) :
    Valid [(t, (x, y))] := by
  refine ⟨by simp, fun q hq => ?_⟩
  obtain rfl : q = t := by simpa using hq
  simpa [lo, hi, len] using ⟨h1, h2⟩

/-- The domain of the derivatives. -/
theorem C48_domain {T : BuilderTags τ} {interp d : Dom τ} (h : BatchOf T interp d) {nbv : Nat} (hn : nbv < 2 ^ 62) :
    ∃ r, T.batchedDerivs interp d nbv = .ok r ∧ Valid r ∧ tags r = renamed T.interp T.deriv (tags d) ∧
      lo T.deriv r = 1 ∧ len T.deriv r = nbv ∧ (∀ q ∈ tags d, q ≠ T.interp → get q r = get q d) ∧
      removeDimsOf r [T.deriv] = removeDimsOf d [T.interp] := by
  have e1 : (BitVec.ofNat 64 nbv).toNat = nbv := by rw [BitVec.toNat_ofNat]; omega
  have e2 : ((1 : U64) + BitVec.ofNat 64 nbv).toNat = 1 + nbv := by
    rw [BitVec.toNat_add, e1, show (1 : U64).toNat = 1 from rfl]; omega
  have e3 : (1 : U64).toNat = 1 := rfl
  obtain ⟨r, r1, r2, r3, r4, r5⟩ := C10_replace_dim d [(T.deriv, (1, 1 + BitVec.ofNat 64 nbv))] h.valid
    (valid_one (by omega) (by omega)) T.interp T.deriv (by simp) (.inl h.noDeriv)
  have hg : get T.deriv r = .ok (1, 1 + BitVec.ofNat 64 nbv) := by rw [r4 h.mem]; simp
  refine ⟨r, ?_, r2, r3, ?_, ?_, r5, replaced_batch h.valid r2 (.inl h.noDeriv) r3 r5⟩
  · rw [BuilderTags.batchedDerivs, batchedInterpolation_ok h, Res.ok_bind, One.ofSize, Res.ok_bind, r1]
  · rw [lo, hg]; rfl
  · rw [len, hi, lo, hg]
    dsimp only
    omega

/-- The domain of the coefficients. -/
theorem C48_spline {T : BuilderTags τ} {interp d : Dom τ} (h : BatchOf T interp d) {m : Nat} (hm : m < 2 ^ 63) :
    ∃ r, T.batchedSpline interp [(T.bspl, (0, BitVec.ofNat 64 m))] d = .ok r ∧ Valid r ∧
      tags r = renamed T.interp T.bspl (tags d) ∧ lo T.bspl r = 0 ∧ len T.bspl r = m ∧
      (∀ q ∈ tags d, q ≠ T.interp → get q r = get q d) ∧ removeDimsOf r [T.bspl] = removeDimsOf d [T.interp] := by
  have e1 : (BitVec.ofNat 64 m).toNat = m := by rw [BitVec.toNat_ofNat]; omega
  have e3 : (0 : U64).toNat = 0 := rfl
  obtain ⟨r, r1, r2, r3, r4, r5⟩ := C10_replace_dim d [(T.bspl, (0, BitVec.ofNat 64 m))] h.valid
    (valid_one (by omega) (by omega)) T.interp T.bspl (by simp) (.inl h.noBspl)
  have hg : get T.bspl r = .ok (0, BitVec.ofNat 64 m) := by rw [r4 h.mem]; simp
  refine ⟨r, ?_, r2, r3, ?_, ?_, r5, replaced_batch h.valid r2 (.inl h.noBspl) r3 r5⟩
  · rw [BuilderTags.batchedSpline, batchedInterpolation_ok h, Res.ok_bind, r1]
  · rw [lo, hg]; rfl
  · rw [len, hi, lo, hg]
    dsimp only
    omega

/-- The transposed domain: the rows first, then the batch dimensions. -/
theorem C48_spline_tr {T : BuilderTags τ} {interp d : Dom τ} (h : BatchOf T interp d) {m rows : Nat} (hm : m < 2 ^ 63)
    (hrows : rows < 2 ^ 63) :
    ∃ r b, T.batchedSplineTr interp [(T.bspl, (0, BitVec.ofNat 64 m))] d (BitVec.ofNat 64 rows) = .ok r ∧
      removeDimsOf d [T.interp] = .ok b ∧ r = (T.bspl, (0, BitVec.ofNat 64 rows)) :: b := by
  obtain ⟨s, s1, s2, s3, -, -, s4, s5⟩ := C48_spline h hm
  have e1 : (BitVec.ofNat 64 rows).toNat = rows := by rw [BitVec.toNat_ofNat]; omega
  have e3 : (0 : U64).toNat = 0 := rfl
  have hsm : T.bspl ∈ tags s := by
    rw [s3, renamed, List.mem_map]
    exact ⟨_, h.mem, by simp⟩
  obtain ⟨r, r1, r2, r3, r4, r5⟩ := C10_replace_dim s [(T.bspl, (0, BitVec.ofNat 64 rows))] s2
    (valid_one (by omega) (by omega)) T.bspl T.bspl (by simp) (.inr rfl)
  have hrs : tags r = tags s := by
    rw [r3]
    conv_rhs => rw [← List.map_id (tags s)]
    refine List.map_congr_left fun q _ => ?_
    by_cases e : q = T.bspl
    · simp [e]
    · simp [e]
  obtain ⟨b, b1, b2, b3, b4, b5⟩ := C10_remove_dims d h.valid [T.interp]
  have hmem : ∀ q, q ∈ TypeSeq.remove (tags d) [T.interp] ↔ q ∈ tags d ∧ q ≠ T.interp := by
    intro q
    rw [TypeSeq.remove_eq]
    simp
  have hmerge : TypeSeq.merge [T.bspl] (TypeSeq.remove (tags d) [T.interp]) =
      T.bspl :: TypeSeq.remove (tags d) [T.interp] := by
    rw [TypeSeq.merge_eq, List.filter_eq_self.2]
    · rfl
    · intro q hq
      have : q ≠ T.bspl := fun e => h.noBspl (e ▸ ((hmem q).1 hq).1)
      simpa using this
  have hnd : (T.bspl :: TypeSeq.remove (tags d) [T.interp]).Nodup := by
    refine List.nodup_cons.2 ⟨fun hq => h.noBspl ((hmem _).1 hq).1, ?_⟩
    rw [TypeSeq.remove_eq]
    exact h.valid.1.filter _
  have hmem' : ∀ q, q ∈ T.bspl :: TypeSeq.remove (tags d) [T.interp] → q ∈ tags r := by
    intro q hq
    rw [hrs]
    rcases List.mem_cons.1 hq with rfl | hq
    · exact hsm
    · rw [s3, renamed, List.mem_map]
      exact ⟨q, ((hmem q).1 hq).1, by simp [((hmem q).1 hq).2]⟩
  have hbt : tags b = TypeSeq.remove (tags d) [T.interp] := by
    obtain ⟨x, x1, x2, -⟩ := ofDomains_ok (ds := [d]) (List.nodup_cons.1 hnd).2 (by simpa using h.valid.1)
      (fun q hq => ownedOnce_singleton ((hmem q).1 hq).1)
    rw [removeDimsOf, x1] at b1
    rw [← Res.ok.inj b1, x2]
  obtain ⟨y, y1, y2, y3⟩ := ofDomains_ok (ds := [r]) hnd (by simpa using r2.1)
    (fun q hq => ownedOnce_singleton (hmem' q hq))
  refine ⟨y, b, ?_, b1, ?_⟩
  · rw [BuilderTags.batchedSplineTr, batchedInterpolation_ok h, Res.ok_bind, s1, Res.ok_bind, One.ofSize, Res.ok_bind,
      show (0 : U64) + BitVec.ofNat 64 rows = BitVec.ofNat 64 rows from BitVec.zero_add _, r1, Res.ok_bind, hmerge, y1]
  · refine ext_get (by rw [y2, ← hbt]; rfl) (by rw [y2]; exact hnd) fun q hq => ?_
    rw [y2] at hq
    rw [y3 q hq r (by simp) (hmem' q hq)]
    rcases List.mem_cons.1 hq with rfl | hq
    · rw [r4 hsm]
      simp
    · obtain ⟨g1, g2⟩ := (hmem q).1 hq
      have g3 : q ≠ T.bspl := fun e => h.noBspl (e ▸ g1)
      rw [r5 q (by rw [s3, renamed, List.mem_map]; exact ⟨q, g1, by simp [g2]⟩) g3, s4 q g1 g2,
        ← b5 q (by rw [hbt]; exact hq), get_cons, if_neg g3]

/-! ## Passing the chunks back -/

variable {K : Type} [Field K] [LinearOrder K] [IsStrictOrderedRing K]

/-- How `operator()` sees a chunk on the domain `r`: the first index and the extent along `q`, and one column for
each element of the other dimensions. -/
structure SeenAs (q : τ) (r : Dom τ) (c : U64 × Mat K) : Prop where
  first : c.1.toNat = lo q r
  rows : c.2.rows = len q r
  cols : ∃ b, removeDimsOf r [q] = .ok b ∧ c.2.cols = card b

/-- Chunks on the domains given for the derivatives can be passed back to the builder: they are those that
`C41_interpolates_partial` asks for. -/
theorem C48_passed_back_partial {T : BuilderTags τ} {interp d : Dom τ} (h : BatchOf T interp d) {p : Nat}
    (hp : p < 2 ^ 62) {c : Closure} (hodd : p % 2 = 1 ∨ c ≠ .hermite) {r s : Dom τ}
    (er : T.batchedDerivs interp d (c.values p) = .ok r) {m : Nat} (hm : m < 2 ^ 63)
    (es : T.batchedSpline interp [(T.bspl, (0, BitVec.ofNat 64 m))] d = .ok s) {chunk : U64 × Mat K}
    (hc : SeenAs T.deriv r chunk) {f : U64} {spline : Mat K} (hs : SeenAs T.bspl s (f, spline)) :
    GivenDerivs c p spline.cols (some chunk) := by
  have hv : c.values p ≤ p := by rw [Closure.values, Closure.equations]; split_ifs <;> omega
  obtain ⟨r', r1, r2, r3, r4, r5, r6, r7⟩ := C48_domain h (nbv := c.values p) (by omega)
  obtain rfl := Res.ok.inj (er.symm.trans r1)
  obtain ⟨s', s1, s2, s3, s4, s5, s6, s7⟩ := C48_spline h hm
  obtain rfl := Res.ok.inj (es.symm.trans s1)
  obtain ⟨f', v⟩ := chunk
  obtain ⟨b, b1, b2⟩ := hc.cols
  obtain ⟨b', b1', b2'⟩ := hs.cols
  rw [r7] at b1
  rw [s7, b1] at b1'
  obtain rfl := Res.ok.inj b1'
  have h1 := hc.first
  have h2 := hc.rows
  dsimp only at h1 h2 b2 b2'
  rw [GivenDerivs]
  split_ifs with hh
  · subst hh
    have hp2 : p % 2 = 1 := hodd.resolve_right (by simp)
    refine ⟨v, ?_, ?_, by rw [b2, b2']⟩
    · rw [hp2]
      congr 2
      exact BitVec.eq_of_toNat_eq (by rw [h1, r4]; rfl)
    · rw [h2, r5]
      rfl
  · intro f v' e
    obtain ⟨-, rfl⟩ := Prod.mk.inj (Option.some.inj e)
    rw [h2, r5, Closure.values, Closure.equations]
    cases c <;> simp at hh ⊢

/-- For an even degree and a HERMITE closure, the builder aborts on such a chunk. -/
theorem C48_even {T : BuilderTags τ} {interp d : Dom τ} (h : BatchOf T interp d) {B : Builder K} {per : Bool}
    {p n : Nat} {t : Nat → K} [FloorRing K] (hB : B.bs.Is per p n t) (heven : p % 2 = 0) {r : Dom τ}
    (hherm : B.lower = .hermite) (er : T.batchedDerivs interp d (B.lower.values p) = .ok r)
    {chunk : U64 × Mat K} (hc : SeenAs T.deriv r chunk) {N : Nat} (hN' : N < 2 ^ 31)
    (hD : Dom.size B.dom = .ok (BitVec.ofNat 64 N))
    (hN : B.lower.equations p + N + B.upper.equations p = if per then n else n + p)
    (L : Lapack K) (σ : Sched) (junk : Nat → Nat → K) {spline vals : Mat K} (hv : vals.rows = N)
    (hcols : vals.cols = spline.cols) (hne : 0 < vals.cols) (dmax : Option (U64 × Mat K)) :
    B.apply L σ junk spline vals (some chunk) dmax = .abort := by
  have hsm := hB.small
  have hval : B.lower.values p ≤ p := by rw [Closure.values, Closure.equations]; split_ifs <;> omega
  obtain ⟨r', r1, r2, r3, r4, r5, r6, r7⟩ := C48_domain h (nbv := B.lower.values p) (by omega)
  obtain rfl := Res.ok.inj (er.symm.trans r1)
  have h1 := hc.first
  obtain ⟨f, v⟩ := chunk
  dsimp only at h1
  have hnb : (if per then n else n + p) < 2 ^ 31 := by split_ifs <;> omega
  rw [apply, hB.degree, hD, Res.ok_bind, hB.nbasis]
  generalize (if per then n else n + p) = nb at *
  rw [BitVec.toNat_ofNat, Nat.mod_eq_of_lt (by omega), decide_eq_true hv, Res.guardAbort_true, Res.ok_bind,
    decide_eq_true hcols, Res.guardAbort_true, Res.ok_bind, if_neg (by omega), Res.ok_bind, One.ofNat_sub (by omega),
    One.ofNat_sub (by omega), decide_eq_true (by congr 1; omega), Res.guardAbort_true, Res.ok_bind, checkDerivs,
    if_pos hherm, heven]
  rw [decide_eq_false]
  · rfl
  · rintro rfl
    rw [r4] at h1
    exact absurd h1 (by decide)

/-- The same at the upper end. -/
theorem C48_even_upper {T : BuilderTags τ} {interp d : Dom τ} (h : BatchOf T interp d) {B : Builder K} {per : Bool}
    {p n : Nat} {t : Nat → K} [FloorRing K] (hB : B.bs.Is per p n t) (heven : p % 2 = 0) {r : Dom τ}
    (hherm : B.upper = .hermite) (er : T.batchedDerivs interp d (B.upper.values p) = .ok r)
    {chunk : U64 × Mat K} (hc : SeenAs T.deriv r chunk) {N : Nat} (hN' : N < 2 ^ 31)
    (hD : Dom.size B.dom = .ok (BitVec.ofNat 64 N))
    (hN : B.lower.equations p + N + B.upper.equations p = if per then n else n + p)
    (L : Lapack K) (σ : Sched) (junk : Nat → Nat → K) {spline vals : Mat K} (hv : vals.rows = N)
    (hcols : vals.cols = spline.cols) (hne : 0 < vals.cols) {dmin : Option (U64 × Mat K)}
    (hmin : GivenDerivs B.lower p spline.cols dmin) :
    B.apply L σ junk spline vals dmin (some chunk) = .abort := by
  have hsm := hB.small
  have hval : B.upper.values p ≤ p := by rw [Closure.values, Closure.equations]; split_ifs <;> omega
  obtain ⟨r', r1, r2, r3, r4, r5, r6, r7⟩ := C48_domain h (nbv := B.upper.values p) (by omega)
  obtain rfl := Res.ok.inj (er.symm.trans r1)
  have h1 := hc.first
  obtain ⟨f, v⟩ := chunk
  dsimp only at h1
  have hnb : (if per then n else n + p) < 2 ^ 31 := by split_ifs <;> omega
  rw [apply, hB.degree, hD, Res.ok_bind, hB.nbasis]
  generalize (if per then n else n + p) = nb at *
  rw [BitVec.toNat_ofNat, Nat.mod_eq_of_lt (by omega), decide_eq_true hv, Res.guardAbort_true, Res.ok_bind,
    decide_eq_true hcols, Res.guardAbort_true, Res.ok_bind, if_neg (by omega), Res.ok_bind, One.ofNat_sub (by omega),
    One.ofNat_sub (by omega), decide_eq_true (by congr 1; omega), Res.guardAbort_true, Res.ok_bind, checkDerivs_ok hmin,
    Res.ok_bind, checkDerivs, if_pos hherm, heven]
  rw [decide_eq_false]
  · rfl
  · rintro rfl
    rw [r4] at h1
    exact absurd h1 (by decide)

/-- Domains of values with a batch dimension on each side, and the domain of the derivatives for cubic splines. -/
example : BatchOf ⟨'x', 's', 'd'⟩ [('x', (0, 5))] [('a', (2, 4)), ('x', (0, 5)), ('b', (0, 3))] ∧
    BuilderTags.batchedDerivs ⟨'x', 's', 'd'⟩ [('x', (0, 5))] [('a', (2, 4)), ('x', (0, 5)), ('b', (0, 3))]
      (Closure.values .hermite 3) = .ok [('a', (2, 4)), ('d', (1, 2)), ('b', (0, 3))] := by
  refine ⟨⟨⟨by decide, by decide⟩, by decide, by decide, by decide, _, rfl, rfl⟩, by decide⟩

/-- A chunk on it is what the builder asks for. -/
example (v : Nat → Nat → Rat) : SeenAs 'd' [('a', (2, 4)), ('d', (1, 2)), ('b', (0, 3))] ((1 : U64), (⟨1, 6, v⟩ : Mat Rat)) ∧
    GivenDerivs .hermite 3 6 (some ((1 : U64), (⟨1, 6, v⟩ : Mat Rat))) :=
  ⟨⟨rfl, rfl, [('a', (2, 4)), ('b', (0, 3))], by decide, rfl⟩, _, rfl, rfl, rfl⟩

end DDC.Props
