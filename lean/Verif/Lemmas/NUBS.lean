import Verif.Lemmas.UBS

/-!
# Non-uniform B-splines: the object, its accessors and its cell search
-/

namespace DDC

set_option linter.unusedSectionVars false

open One Props

variable {K : Type} [Field K] [LinearOrder K] [IsStrictOrderedRing K]

namespace NUBS

/-- The knots `f` contain the break points and are extended as required on both sides. -/
structure KnotsOf (p : Nat) (per : Bool) (breaks : List K) (f : Nat → K) : Prop where
  inner : ∀ i (h : i < breaks.length), f (p + i) = breaks[i]
  periodic : per = true → ∀ k, k ≤ 2 * p →
    f (k + (breaks.length - 1)) = f k + (f (p + (breaks.length - 1)) - f p)
  clamped : per = false → ∀ k, k ≤ p → f k = f p ∧ f (p + (breaks.length - 1) + k) =
    f (p + (breaks.length - 1))

/-- The sorted break points make the knots sorted. -/
theorem KnotsOf.sorted {p : Nat} {per : Bool} {breaks : List K} {f : Nat → K}
    (h : KnotsOf p per breaks f) (hb : Increasing breaks) (hl : 2 ≤ breaks.length) (k : Nat)
    (hk : k + 1 < breaks.length + 2 * p) : f k ≤ f (k + 1) := by
  have hin : ∀ k, p ≤ k → k < p + (breaks.length - 1) → f k ≤ f (k + 1) := by
    intro k h1 h2
    obtain ⟨i, rfl⟩ : ∃ i, k = p + i := ⟨k - p, by omega⟩
    rw [h.inner i (by omega), Nat.add_assoc, h.inner (i + 1) (by omega)]
    exact hb i (i + 1) (by omega) (by omega)
  cases per with
  | false =>
    have hcl := h.clamped rfl
    by_cases h1 : k < p
    · rw [(hcl k (by omega)).1, (hcl (k + 1) (by omega)).1]
    · by_cases h2 : k < p + (breaks.length - 1)
      · exact hin k (by omega) h2
      · have e1 := (hcl (k - (p + (breaks.length - 1))) (by omega)).2
        have e2 := (hcl (k + 1 - (p + (breaks.length - 1))) (by omega)).2
        rw [Nat.add_sub_cancel' (by omega)] at e1 e2
        rw [e1, e2]
  | true =>
    have hpe := h.periodic rfl
    have hup : ∀ m k, k < m → p ≤ k → k + 1 < breaks.length + 2 * p → f k ≤ f (k + 1) := by
      intro m
      induction m with
      | zero => intro k hk; omega
      | succ m ih =>
        intro k hkm h1 h2
        by_cases h3 : k < p + (breaks.length - 1)
        · exact hin k h1 h3
        · have e1 := hpe (k - (breaks.length - 1)) (by omega)
          have e2 := hpe (k + 1 - (breaks.length - 1)) (by omega)
          rw [Nat.sub_add_cancel (by omega)] at e1 e2
          rw [e1, e2]
          have := ih (k - (breaks.length - 1)) (by omega) (by omega) (by omega)
          have e3 : k - (breaks.length - 1) + 1 = k + 1 - (breaks.length - 1) := by omega
          rw [e3] at this
          linarith
    have hdn : ∀ m k, p - k ≤ m → k + 1 < breaks.length + 2 * p → f k ≤ f (k + 1) := by
      intro m
      induction m with
      | zero => intro k h1 h2; exact hup (k + 1) k (by omega) (by omega) h2
      | succ m ih =>
        intro k h1 h2
        by_cases h3 : p ≤ k
        · exact hup (k + 1) k (by omega) h3 h2
        · have e1 := hpe k (by omega)
          have e2 := hpe (k + 1) (by omega)
          have := ih (k + (breaks.length - 1)) (by omega) (by omega)
          rw [show k + (breaks.length - 1) + 1 = k + 1 + (breaks.length - 1) by omega] at this
          linarith
    exact hdn (p - k) k (le_refl _) hk

/-- All the entries of the array are initialised, to the values of `f`. -/
def Filled (a : Arr K) (n : Nat) (f : Nat → K) : Prop := a.size = n ∧ ∀ k, k < n → a.val k = some (f k)

theorem Filled.set {a : Arr K} {n : Nat} {f : Nat → K} (h : Filled a n f) (i : Nat) (v : K) :
    Filled (a.set i v) n (fun k => if k = i then v else f k) := by
  refine ⟨h.1, fun k hk => ?_⟩
  rw [Arr.set_val]
  by_cases hki : k = i
  · simp [hki]
  · simp only [hki, if_false]
    exact h.2 k hk

/-- The loop copying the break points. -/
theorem fillBreaks_ok (p : Nat) (breaks : List K) :
    ∃ a f, forLoop (fillBreaks p breaks) 0 breaks.length (Arr.const (breaks.length + 2 * p) 0) = .ok a ∧
      Filled a (breaks.length + 2 * p) f ∧ ∀ i (h : i < breaks.length), f (p + i) = breaks[i] := by
  obtain ⟨a, e, f, h1, h2⟩ := forLoop_inv (f := fillBreaks p breaks)
    (fun ii a => ∃ f, Filled a (breaks.length + 2 * p) f ∧
      ∀ i (h : i < breaks.length), i < ii → f (p + i) = breaks[i])
    breaks.length 0 (Arr.const (breaks.length + 2 * p) 0)
    ⟨fun _ => 0, ⟨rfl, fun _ _ => rfl⟩, fun i _ hi => absurd hi (by omega)⟩
    (by
      rintro ii a - hii ⟨f, h1, h2⟩
      have hii' : ii < breaks.length := by omega
      refine ⟨a.set (p + ii) breaks[ii], ?_, _, h1.set _ _, ?_⟩
      · rw [fillBreaks, List.getElem?_eq_getElem hii']
        exact Arr.wr_ok (by rw [h1.1]; omega) _
      · intro i hi hi'
        by_cases hx : i = ii
        · subst hx; simp
        · simp only [show p + i ≠ p + ii by omega, if_false]
          exact h2 i hi (by omega))
  exact ⟨a, f, e, h1, fun i h => h2 i h (by omega)⟩

/-- The loop filling the extra knots of the open case. -/
theorem fillOpen_ok {p : Nat} {breaks : List K} (hl : 2 ≤ breaks.length) {a : Arr K} {f : Nat → K}
    (ha : Filled a (breaks.length + 2 * p) f)
    (hf : ∀ i (h : i < breaks.length), f (p + i) = breaks[i]) :
    ∃ a' f', forLoop (fillOpen p breaks.length (f p) (f (p + (breaks.length - 1)))) 1 p a = .ok a' ∧
      Filled a' (breaks.length + 2 * p) f' ∧ KnotsOf p false breaks f' := by
  obtain ⟨a', e, f', h1, h2, h3⟩ := forLoop_inv
    (f := fillOpen p breaks.length (f p) (f (p + (breaks.length - 1))))
    (fun i a => ∃ f', Filled a (breaks.length + 2 * p) f' ∧
      (∀ i (h : i < breaks.length), f' (p + i) = breaks[i]) ∧
      (∀ j, 1 ≤ j → j < i → f' (p - j) = f p ∧
        f' (p + (breaks.length - 1) + j) = f (p + (breaks.length - 1))))
    p 1 a ⟨f, ha, hf, fun j h1 h2 => absurd h2 (by omega)⟩
    (by
      rintro i a hi hi' ⟨f', h1, h2, h3⟩
      have e1 : a.wr (p - i) (f p) = .ok (a.set (p - i) (f p)) := Arr.wr_ok (by rw [h1.1]; omega) _
      have e2 : (a.set (p - i) (f p)).wr (p + breaks.length - 1 + i) (f (p + (breaks.length - 1))) =
          .ok ((a.set (p - i) (f p)).set (p + breaks.length - 1 + i) (f (p + (breaks.length - 1)))) :=
        Arr.wr_ok (by rw [Arr.set_size, h1.1]; omega) _
      refine ⟨_, by rw [fillOpen, e1, Res.ok_bind, e2], _, (h1.set _ _).set _ _, ?_, ?_⟩
      · intro j hj
        simp only [show p + j ≠ p + breaks.length - 1 + i by omega, show p + j ≠ p - i by omega,
          if_false]
        exact h2 j hj
      · intro j hj1 hj2
        by_cases hj : j = i
        · subst hj
          constructor
          · simp only [show p - j ≠ p + breaks.length - 1 + j by omega, if_false, if_true]
          · simp only [show p + (breaks.length - 1) + j = p + breaks.length - 1 + j by omega, if_true]
        · have := h3 j hj1 (by omega)
          constructor
          · simp only [show p - j ≠ p + breaks.length - 1 + i by omega,
              show p - j ≠ p - i by omega, if_false, this.1]
          · simp only [show p + (breaks.length - 1) + j ≠ p + breaks.length - 1 + i by omega,
              show p + (breaks.length - 1) + j ≠ p - i by omega, if_false, this.2])
  have hp0 : f' p = f p := by
    have e1 := h2 0 (by omega); have e2 := hf 0 (by omega)
    rw [Nat.add_zero] at e1 e2; rw [e1, e2]
  have hp1 : f' (p + (breaks.length - 1)) = f (p + (breaks.length - 1)) := by
    rw [h2 _ (by omega), hf _ (by omega)]
  refine ⟨a', f', e, h1, h2, fun h => (nomatch h), fun _ k hk => ⟨?_, ?_⟩⟩
  · by_cases h : k = p
    · rw [h]
    · have := (h3 (p - k) (by omega) (by omega)).1
      rw [Nat.sub_sub_self hk] at this
      rw [this, hp0]
  · by_cases h : k = 0
    · rw [h]; rfl
    · rw [(h3 k (by omega) (by omega)).2, hp1]

/-- The loop filling the extra knots of the periodic case. -/
theorem fillPeriodic_ok {p : Nat} {breaks : List K} (hl : 2 ≤ breaks.length) {a : Arr K} {f : Nat → K}
    (ha : Filled a (breaks.length + 2 * p) f)
    (hf : ∀ i (h : i < breaks.length), f (p + i) = breaks[i]) :
    ∃ a' f', forLoop (fillPeriodic p (breaks.length - 1) (f (p + (breaks.length - 1)) - f p)) 1 p a
        = .ok a' ∧
      Filled a' (breaks.length + 2 * p) f' ∧ KnotsOf p true breaks f' := by
  generalize hn : breaks.length - 1 = n
  have hN : breaks.length + 2 * p = n + 1 + 2 * p := by omega
  rw [hN] at ha ⊢
  obtain ⟨a', e, f', h1, h2, h3⟩ := forLoop_inv
    (f := fillPeriodic p n (f (p + n) - f p))
    (fun i a => ∃ f', Filled a (n + 1 + 2 * p) f' ∧
      (∀ i (h : i < breaks.length), f' (p + i) = breaks[i]) ∧
      (∀ k, p < k + i → k < p + i → f' (k + n) = f' k + (f (p + n) - f p)))
    p 1 a ⟨f, ha, hf, fun k h1 h2 => by
      obtain rfl : k = p := by omega
      ring⟩
    (by
      rintro i a hi hi' ⟨f', h1, h2, h3⟩
      have e0 : a.rd (p + n - i) = .ok (f' (p + n - i)) :=
        Arr.rd_ok (by rw [h1.1]; omega) (h1.2 _ (by omega))
      have e1 : a.wr (p - i) (f' (p + n - i) - (f (p + n) - f p)) =
        .ok (a.set (p - i) (f' (p + n - i) - (f (p + n) - f p))) := Arr.wr_ok (by rw [h1.1]; omega) _
      have F1 := h1.set (p - i) (f' (p + n - i) - (f (p + n) - f p))
      have e2 : (a.set (p - i) (f' (p + n - i) - (f (p + n) - f p))).rd (p + i) = .ok (f' (p + i)) := by
        refine Arr.rd_ok (by rw [F1.1]; omega) ?_
        rw [F1.2 _ (by omega)]
        simp only [show p + i ≠ p - i by omega, if_false]
      have e3 : (a.set (p - i) (f' (p + n - i) - (f (p + n) - f p))).wr (p + n + i)
          (f' (p + i) + (f (p + n) - f p)) =
          .ok ((a.set (p - i) (f' (p + n - i) - (f (p + n) - f p))).set (p + n + i)
          (f' (p + i) + (f (p + n) - f p))) :=
        Arr.wr_ok (by rw [Arr.set_size, h1.1]; omega) _
      refine ⟨_, by rw [fillPeriodic, e0, Res.ok_bind, e1, Res.ok_bind, e2, Res.ok_bind, e3], _,
        F1.set _ _, ?_, ?_⟩
      · intro j hj
        simp only [show p + j ≠ p + n + i by omega, show p + j ≠ p - i by omega,
          if_false]
        exact h2 j hj
      · intro k hk1 hk2
        by_cases hka : k = p - i
        · subst hka
          simp only [show p - i + n = p + n - i by omega, show p + n - i ≠ p + n + i by omega,
            show p + n - i ≠ p - i by omega, show p - i ≠ p + n + i by omega, if_false, if_true]
          ring
        · by_cases hkb : k = p + i
          · subst hkb
            simp only [show p + i + n = p + n + i by omega, show p + i ≠ p + n + i by omega,
              show p + i ≠ p - i by omega, if_false, if_true]
          · simp only [show k + n ≠ p + n + i by omega, show k + n ≠ p - i by omega,
              show k ≠ p + n + i by omega, hka, if_false]
            exact h3 k (by omega) (by omega))
  have hp0 : f' p = f p := by
    have e1 := h2 0 (by omega); have e2 := hf 0 (by omega)
    rw [Nat.add_zero] at e1 e2; rw [e1, e2]
  have hp1 : f' (p + n) = f (p + n) := by
    rw [h2 _ (by omega), hf _ (by omega)]
  refine ⟨a', f', e, h1, h2, fun _ k hk => ?_, fun h => (nomatch h)⟩
  rw [hn, h3 k (by omega) (by omega), hp0, hp1]

end NUBS

/-- The B-splines with the knots `pts`. -/
def nubs (p : Nat) (per : Bool) (pts : List K) (nb : Nat) : NUBS K :=
  ⟨p, per, ⟨pts, el () 0⟩, seg () 0 (nb + 2 * p), seg () p (p + nb), el () 0⟩

/-- The constructor, on break points that may not be sorted. -/
theorem NUBS.mk'_eq {p : Nat} (hp : 0 < p) (per : Bool) {breaks : List K} (hl : 2 ≤ breaks.length)
    (hs : breaks.length + 2 * p < 2 ^ 63)
    (hlt : breaks[0] < breaks[breaks.length - 1]) :
    ∃ f : Nat → K, KnotsOf p per breaks f ∧ NUBS.mk' p per breaks =
      if isSorted ((List.range (breaks.length + 2 * p)).map f) then
        .ok (nubs p per ((List.range (breaks.length + 2 * p)).map f) breaks.length)
      else .throw := by
  have h1 : decide (0 < p) = true := by simpa using hp
  obtain ⟨a, f, e1, ha, hf⟩ := fillBreaks_ok p breaks
  have r1 : a.rd p = .ok (f p) := Arr.rd_ok (by rw [ha.1]; omega) (ha.2 _ (by omega))
  have r2 : a.rd (breaks.length + p - 1) = .ok (f (p + (breaks.length - 1))) := by
    rw [show breaks.length + p - 1 = p + (breaks.length - 1) by omega]
    exact Arr.rd_ok (by rw [ha.1]; omega) (ha.2 _ (by omega))
  have h2 : decide (f p < f (p + (breaks.length - 1))) = true := by
    have e0 := hf 0 (by omega)
    rw [Nat.add_zero] at e0
    rw [e0, hf _ (by omega)]
    exact decide_eq_true hlt
  have hsz : (BitVec.ofNat 64 (0 + (breaks.length + 2 * p) - 0)).toNat - 2 * p = breaks.length := by
    rw [BitVec.toNat_ofNat]; omega
  have fin : ∀ (a' : Arr K) (f' : Nat → K), Filled a' (breaks.length + 2 * p) f' →
      (do
        let pts ← a'.toList
        let attr ← NonUniform.mk' () pts
        pure (⟨p, per, attr, seg () 0 (0 + (breaks.length + 2 * p)), seg () p (p + breaks.length),
          Elem.createReference ()⟩ : NUBS K)) =
      if isSorted ((List.range (breaks.length + 2 * p)).map f') then
        .ok (nubs p per ((List.range (breaks.length + 2 * p)).map f') breaks.length)
      else .throw := by
    intro a' f' h1
    have e := Arr.toList_ok f' (by rw [h1.1]; exact h1.2)
    rw [h1.1] at e
    simp only [e, Res.ok_bind, NonUniform.mk']
    cases isSorted ((List.range (breaks.length + 2 * p)).map f') <;>
      simp only [if_true, nubs, Nat.zero_add, Bool.false_eq_true, if_false] <;> rfl
  have s1 : Dom.ofSize (el1 0) (ve1 (BitVec.ofNat 64 (breaks.length + 2 * p))) =
      .ok (seg () 0 (0 + (breaks.length + 2 * p))) := ofSize_nat () 0 _
  have s2 : Dom.ofSize (el1 (BitVec.ofNat 64 p)) (ve1 (BitVec.ofNat 64 breaks.length)) =
      .ok (seg () p (p + breaks.length)) := ofSize_nat () p _
  cases per with
  | false =>
    obtain ⟨a', f', e2, h3, h4⟩ := fillOpen_ok hl ha hf
    refine ⟨f', h4, ?_⟩
    rw [← fin a' f' h3]
    simp only [NUBS.mk', h1, Res.guardIll_true, Res.ok_bind, s1, s2, seg_size (Nat.zero_le _), hsz, e1,
      r1, r2, h2, Res.guardAbort_true, Bool.false_eq_true, if_false, e2]
  | true =>
    obtain ⟨a', f', e2, h3, h4⟩ := fillPeriodic_ok hl ha hf
    refine ⟨f', h4, ?_⟩
    rw [← fin a' f' h3]
    simp only [NUBS.mk', h1, Res.guardIll_true, Res.ok_bind, s1, s2, seg_size (Nat.zero_le _), hsz, e1,
      r1, r2, h2, Res.guardAbort_true, if_true, e2]

/-- The constructor, on sorted break points. -/
theorem NUBS.mk'_ok {p : Nat} (hp : 0 < p) (per : Bool) {breaks : List K} (hl : 2 ≤ breaks.length)
    (hs : breaks.length + 2 * p < 2 ^ 63) (hb : Increasing breaks)
    (hlt : breaks[0] < breaks[breaks.length - 1]) :
    ∃ f : Nat → K, KnotsOf p per breaks f ∧ NUBS.mk' p per breaks =
      .ok (nubs p per ((List.range (breaks.length + 2 * p)).map f) breaks.length) := by
  obtain ⟨f, h2, e⟩ := NUBS.mk'_eq hp per hl hs hlt
  refine ⟨f, h2, ?_⟩
  have hinc : Increasing ((List.range (breaks.length + 2 * p)).map f) := by
    intro i j hij hj
    have hj : j < breaks.length + 2 * p := by simpa using hj
    simp only [List.getElem_map, List.getElem_range]
    clear * - hij hj h2 hb hl
    induction j, hij using Nat.le_induction with
    | base => exact le_refl _
    | succ j hij ih => exact le_trans (ih (by omega)) (h2.sorted hb hl j hj)
  rw [e, if_pos ((isSorted_iff _).2 hinc)]

/-- The constructor throws on unsorted break points. -/
theorem NUBS.mk'_throw {p : Nat} (hp : 0 < p) (per : Bool) {breaks : List K} (hl : 2 ≤ breaks.length)
    (hs : breaks.length + 2 * p < 2 ^ 63) (hb : ¬ Increasing breaks)
    (hlt : breaks[0] < breaks[breaks.length - 1]) : NUBS.mk' p per breaks = .throw := by
  obtain ⟨f, h2, e⟩ := NUBS.mk'_eq hp per hl hs hlt
  rw [e, if_neg]
  rw [isSorted_iff]
  intro h
  apply hb
  intro i j hij hj
  have := h (p + i) (p + j) (by omega) (by simp; omega)
  simpa [h2.inner i (by omega), h2.inner j hj] using this

/-- The constructor aborts when the last break point is not after the first one. -/
theorem NUBS.mk'_abort {p : Nat} (hp : 0 < p) (per : Bool) {breaks : List K} (hl : 1 ≤ breaks.length)
    (hlt : breaks[breaks.length - 1] ≤ breaks[0]) : NUBS.mk' p per breaks = .abort := by
  have h1 : decide (0 < p) = true := by simpa using hp
  obtain ⟨a, f, e1, ha, hf⟩ := fillBreaks_ok p breaks
  have r1 : a.rd p = .ok (f p) := Arr.rd_ok (by rw [ha.1]; omega) (ha.2 _ (by omega))
  have r2 : a.rd (breaks.length + p - 1) = .ok (f (p + (breaks.length - 1))) := by
    rw [show breaks.length + p - 1 = p + (breaks.length - 1) by omega]
    exact Arr.rd_ok (by rw [ha.1]; omega) (ha.2 _ (by omega))
  have h2 : decide (f p < f (p + (breaks.length - 1))) = false := by
    have e0 := hf 0 (by omega)
    rw [Nat.add_zero] at e0
    rw [e0, hf _ (by omega)]
    exact decide_eq_false (not_lt.2 hlt)
  have s1 : Dom.ofSize (el1 0) (ve1 (BitVec.ofNat 64 (breaks.length + 2 * p))) =
      .ok (seg () 0 (0 + (breaks.length + 2 * p))) := ofSize_nat () 0 _
  have s2 : Dom.ofSize (el1 (BitVec.ofNat 64 p)) (ve1 (BitVec.ofNat 64 breaks.length)) =
      .ok (seg () p (p + breaks.length)) := ofSize_nat () p _
  simp only [NUBS.mk', h1, Res.guardIll_true, Res.ok_bind, s1, s2, seg_size (Nat.zero_le _), e1,
      r1, r2, h2, Res.guardAbort_false, Res.abort_bind]

/-- `u` is the object with degree `p`, `n` cells and knots `t`. -/
structure NUBS.Is (u : NUBS K) (p n : Nat) (t : Nat → K) : Prop where
  degree : u.degree = p
  pos : 0 < p
  cells : 0 < n
  small : n + 1 + 2 * p < 2 ^ 63
  knotDom : u.knotDom = seg () 0 (n + 1 + 2 * p)
  breakDom : u.breakDom = seg () p (p + (n + 1))
  ref : u.ref = el () 0
  mono : Monotone t
  coord : ∀ k, k < n + 1 + 2 * p → u.knots.coordinate (el () k) = .ok (t k)

/-- What the constructor returns. -/
theorem NUBS.mk'_is {p : Nat} (hp : 0 < p) (per : Bool) {breaks : List K} (hl : 2 ≤ breaks.length)
    (hs : breaks.length + 2 * p < 2 ^ 63) (hb : Increasing breaks)
    (hlt : breaks[0] < breaks[breaks.length - 1]) :
    ∃ u t, NUBS.mk' p per breaks = .ok u ∧ u.periodic = per ∧ u.Is p (breaks.length - 1) t ∧
      KnotsOf p per breaks t := by
  obtain ⟨f, hf, e⟩ := NUBS.mk'_ok hp per hl hs hb hlt
  have hN : breaks.length + 2 * p = breaks.length - 1 + 1 + 2 * p := by omega
  refine ⟨_, fun k => f (min k (breaks.length + 2 * p - 1)), e, rfl, ?_, ?_⟩
  · refine ⟨rfl, hp, by omega, by omega, ?_, ?_, rfl, ?_, fun k hk => ?_⟩
    · rw [← hN]; rfl
    · rw [show breaks.length - 1 + 1 = breaks.length by omega]; rfl
    · apply monotone_nat_of_le_succ
      intro k
      by_cases hk : k + 1 < breaks.length + 2 * p
      · rw [min_eq_left (by omega), min_eq_left (by omega)]
        exact hf.sorted hb hl k hk
      · rw [min_eq_right (by omega), min_eq_right (by omega)]
    · rw [min_eq_left (by omega)]
      have := nu_coordinate_ok () ((List.range (breaks.length + 2 * p)).map f) (i := k) (by omega)
        (by simp; omega)
      rw [show (nubs p per ((List.range (breaks.length + 2 * p)).map f) breaks.length).knots =
        ⟨(List.range (breaks.length + 2 * p)).map f, Elem.createReference ()⟩ from rfl, this]
      simp
  · refine ⟨fun i hi => ?_, fun h k hk => ?_, fun h k hk => ?_⟩
    · rw [min_eq_left (by omega)]; exact hf.inner i hi
    · rw [min_eq_left (by omega), min_eq_left (by omega), min_eq_left (by omega),
        min_eq_left (by omega)]
      exact hf.periodic h k hk
    · rw [min_eq_left (by omega), min_eq_left (by omega), min_eq_left (by omega),
        min_eq_left (by omega)]
      exact hf.clamped h k hk

namespace NUBS

variable {u : NUBS K} {p n : Nat} {t : Nat → K}

theorem Is.rmin (h : u.Is p n t) : u.rmin = .ok (t p) := by
  have := h.cells
  rw [NUBS.rmin, h.breakDom, One.front, h.coord _ (by omega)]

theorem Is.rmax (h : u.Is p n t) : u.rmax = .ok (t (p + n)) := by
  have := h.cells
  rw [NUBS.rmax, h.breakDom, back_nat () (by omega), Res.ok_bind,
    show p + (n + 1) - 1 = p + n from rfl, h.coord _ (by omega)]

theorem Is.ncells (h : u.Is p n t) : u.ncells = .ok (BitVec.ofNat 64 n) := by
  have h2 : (2 : U64) * BitVec.ofNat 64 p = BitVec.ofNat 64 (2 * p) := by
    rw [BitVec.ofNat_mul]; rfl
  rw [NUBS.ncells, NUBS.npoints, h.knotDom, seg_size (by omega), Res.ok_bind, h.degree, h2,
    ofNat_sub (by omega)]
  simp only [Res.pure_eq, Res.ok_bind]
  rw [show (1 : U64) = BitVec.ofNat 64 1 from rfl, ofNat_sub (by omega)]
  congr 2
  omega

theorem Is.knot (h : u.Is p n t) {k : Nat} (hk : k < n + 1 + 2 * p) :
    u.knot (BitVec.ofNat 64 k) = .ok (t k) := h.coord k hk

theorem mid_nat {l h : Nat} (hl : l ≤ h) (hh : h < 2 ^ 63) :
    mid (BitVec.ofNat 64 l) (BitVec.ofNat 64 h) = BitVec.ofNat 64 (l + (h - l) / 2) := by
  rw [mid, ofNat_sub hl, toInt_ofNat (by omega), BitVec.ofNat_add]
  congr 1

theorem ofNat_succ (k : Nat) : (BitVec.ofNat 64 k + 1 : U64) = BitVec.ofNat 64 (k + 1) := by
  rw [BitVec.ofNat_add]; rfl

/-- The binary search ends and finds the interval. -/
theorem Is.searchLoop (h : u.Is p n t) {x : K} (fuel l r : Nat) (hlr : l < r) (hr : r < n + 1 + 2 * p)
    (hf : r - l < fuel) (hl' : t l ≤ x) (hr' : x < t r) :
    ∃ c, u.searchLoop x fuel (BitVec.ofNat 64 l) (BitVec.ofNat 64 r) = .ok (BitVec.ofNat 64 c) ∧
      l ≤ c ∧ c < r ∧ t c ≤ x ∧ x < t (c + 1) := by
  have hsm := h.small
  induction fuel generalizing l r with
  | zero => omega
  | succ fuel ih =>
    simp only [NUBS.searchLoop]
    rw [mid_nat hlr.le (by omega), h.knot (by omega), Res.ok_bind]
    by_cases h1 : x < t (l + (r - l) / 2)
    · rw [if_pos h1]
      have : 0 < (r - l) / 2 := by
        rcases Nat.eq_zero_or_pos ((r - l) / 2) with h0 | h0
        · rw [h0, Nat.add_zero] at h1; exact absurd h1 (not_lt.2 hl')
        · exact h0
      obtain ⟨c, e, h3, h4, h5⟩ := ih l (l + (r - l) / 2) (by omega) (by omega) (by omega) hl' h1
      exact ⟨c, e, h3, by omega, h5⟩
    · rw [if_neg h1, ofNat_succ, h.knot (by omega), Res.ok_bind]
      by_cases h2 : t (l + (r - l) / 2 + 1) ≤ x
      · rw [if_pos h2]
        have h3 : l + (r - l) / 2 + 1 < r := by
          by_contra hc
          have : r ≤ l + (r - l) / 2 + 1 := by omega
          exact absurd hr' (not_lt.2 (le_trans (h.mono this) h2))
        obtain ⟨c, e, h4, h5⟩ := ih (l + (r - l) / 2) r (by omega) hr (by omega) (not_lt.1 h1) hr'
        exact ⟨c, e, by omega, h5⟩
      · rw [if_neg h2]
        exact ⟨_, rfl, by omega, by omega, not_lt.1 h1, not_le.1 h2⟩

theorem Is.ends (h : u.Is p n t) : t p ≤ t (p + n) := h.mono (by omega)

/-- `find_cell_start` inside of the interval. -/
theorem Is.findCellStart (h : u.Is p n t) (hab : t p < t (p + n)) {x : K}
    (hx : t p ≤ x ∧ x ≤ t (p + n)) :
    ∃ c, u.findCellStart x = .ok (el () c) ∧ p ≤ c ∧ c < p + n ∧
      (x = t p → c = p) ∧ (x = t (p + n) → c = p + n - 1) ∧
      (t p < x → x < t (p + n) → t c ≤ x ∧ x < t (c + 1)) := by
  have hsm := h.small
  have hcl := h.cells
  simp only [NUBS.findCellStart, h.rmin, h.rmax, Res.ok_bind, checkInside_ok hab hx]
  rw [h.breakDom, One.front, back_nat () (by omega), Res.ok_bind]
  by_cases h1 : x ≤ t p
  · rw [if_pos h1]
    exact ⟨p, rfl, le_refl _, by omega, fun _ => rfl,
      fun e => absurd h1 (not_le.2 (by rw [e]; exact hab)), fun e => absurd e (not_lt.2 h1)⟩
  · rw [if_neg h1]
    by_cases h2 : t (p + n) ≤ x
    · rw [if_pos h2]
      refine ⟨p + n - 1, ?_, by omega, by omega, fun e => absurd e.le h1, fun _ => rfl,
        fun _ e => absurd e (not_lt.2 h2)⟩
      rw [show Elem.subInt (el () (p + (n + 1) - 1)) 1 = .ok [((), BitVec.ofNat 64 (p + (n + 1) - 1) - 1)]
        from rfl, show (1 : U64) = BitVec.ofNat 64 1 from rfl, ofNat_sub (by omega)]
      rfl
    · rw [if_neg h2]
      have e1 : uid1 (el () p) = .ok (BitVec.ofNat 64 p) := by simp [uid1, el]
      have e2 : uid1 (el () (p + (n + 1) - 1)) = .ok (BitVec.ofNat 64 (p + n)) := by
        simp [uid1, el]
      simp only [e1, e2, Res.ok_bind]
      obtain ⟨c, e, h3, h4, h5, h6⟩ := h.searchLoop (x := x)
        ((BitVec.ofNat 64 (p + n)).toNat - (BitVec.ofNat 64 p).toNat + 1) p (p + n) (by omega)
        (by omega) (by simp only [BitVec.toNat_ofNat]; omega) (not_le.1 h1).le (not_le.1 h2)
      rw [e]
      exact ⟨c, rfl, h3, h4, fun e => absurd e.le h1, fun e => absurd e.ge h2, fun _ _ => ⟨h5, h6⟩⟩

/-- The interval found contains the point in the sense of the specification. -/
theorem Is.cell (h : u.Is p n t) (h0 : t p < t (p + 1)) (h1 : t (p + n - 1) < t (p + n)) {x : K}
    (hx : t p ≤ x ∧ x ≤ t (p + n)) :
    ∃ c, u.findCellStart x = .ok (el () c) ∧ p ≤ c ∧ c < p + n ∧ Spec.InCell t (t (p + n)) x c := by
  have hcl := h.cells
  have hab : t p < t (p + n) := lt_of_lt_of_le h0 (h.mono (by omega))
  obtain ⟨c, e, h2, h3, h4, h5, h6⟩ := h.findCellStart hab hx
  refine ⟨c, e, h2, h3, ?_⟩
  rw [Spec.InCell]
  by_cases hb : x = t (p + n)
  · rw [if_neg (by rw [hb]; exact lt_irrefl _), h5 hb, hb]
    exact ⟨h1, h.mono (by omega)⟩
  · have hlt : x < t (p + n) := lt_of_le_of_ne hx.2 hb
    rw [if_pos hlt]
    by_cases ha : x = t p
    · rw [h4 ha, ha]; exact ⟨le_refl _, h0⟩
    · exact h6 (lt_of_le_of_ne hx.1 (Ne.symm ha)) hlt

theorem uid1_el (c : Nat) : uid1 (el () c) = .ok (BitVec.ofNat 64 c) := by simp [uid1, el]

theorem Is.checkCell (h : u.Is p n t) {x : K} {c : Nat} (hc : p ≤ c) (hc' : c < p + n)
    (hx : t c ≤ x ∧ x ≤ t (c + 1)) : u.checkCell x (BitVec.ofNat 64 c) = .ok () := by
  have hsm := h.small
  have ht : (0 : K) ≤ (t (p + n) - t p) * tol :=
    mul_nonneg (sub_nonneg.2 h.ends) (by rw [tol]; positivity)
  have d1 : decide ((BitVec.ofNat 64 p).toNat ≤ (BitVec.ofNat 64 c).toNat) = true := by
    simp only [BitVec.toNat_ofNat, decide_eq_true_eq]; omega
  have d2 : decide ((BitVec.ofNat 64 c).toNat ≤ (BitVec.ofNat 64 (p + (n + 1) - 1)).toNat) = true := by
    simp only [BitVec.toNat_ofNat, decide_eq_true_eq]; omega
  have d3 : decide (t c - x ≤ (t (p + n) - t p) * tol) = true := by
    simp only [decide_eq_true_eq]; linarith [hx.1]
  have d4 : decide (x - t (c + 1) ≤ (t (p + n) - t p) * tol) = true := by
    simp only [decide_eq_true_eq]; linarith [hx.2]
  simp only [NUBS.checkCell, h.rmin, h.rmax, Res.ok_bind]
  rw [h.breakDom, One.front, back_nat () (by omega), uid1_el, Res.ok_bind, Res.ok_bind, uid1_el, Res.ok_bind]
  simp only [d1, d2, Res.guardAbort_true, Res.ok_bind]
  rw [ofNat_succ, h.knot (by omega), Res.ok_bind, d3, h.knot (by omega), Res.guardAbort_true, Res.ok_bind,
    Res.ok_bind, d4]
  rfl

theorem Is.firstBspline (h : u.Is p n t) {c : Nat} (hc : p ≤ c) (hc' : c < p + n) :
    u.firstBsplineInCell (el () c) = .ok (el () (c - p)) := by
  rw [NUBS.firstBsplineInCell, h.breakDom, One.front, sub_nat () hc, Res.ok_bind,
    show Vect.value (vec () (c - p)) = .ok (BitVec.ofNat 64 (c - p)) from rfl, Res.ok_bind, h.ref]
  simp [Elem.addInt, el]

/-! ## The triangular scheme -/

/-- `L` coefficients. -/
def nL (t : Nat → K) (x : K) (c j r : Nat) : K :=
  (x - t (c - j + r)) / (t (c + r + 1) - t (c - j + r))

/-- `R` coefficients. -/
def nR (t : Nat → K) (x : K) (c j r : Nat) : K :=
  (t (c + r + 1) - x) / (t (c + r + 1) - t (c - j + r))

/-- The arrays `left` and `right` are filled up to `j`. -/
structure Sides (t : Nat → K) (x : K) (c p : Nat) (left right : Arr K) (j : Nat) : Prop where
  lsize : left.size = p
  rsize : right.size = p
  lval : ∀ i, i < j → left.val i = some (x - t (c - i))
  rval : ∀ i, i < j → right.val i = some (t (c + i + 1) - x)

theorem Sides.next {x : K} {c p : Nat} {left right : Arr K} {j : Nat}
    (h : Sides t x c p left right j) :
    Sides t x c p (left.set j (x - t (c - j))) (right.set j (t (c + j + 1) - x)) (j + 1) where
  lsize := h.lsize
  rsize := h.rsize
  lval i hi := by
    rw [Arr.set_val]
    split
    · subst i; rfl
    · exact h.lval i (by omega)
  rval i hi := by
    rw [Arr.set_val]
    split
    · subst i; rfl
    · exact h.rval i (by omega)

theorem basisInner_ok {x s0 : K} {c p : Nat} {left right : Arr K} {j : Nat} (hj : j < p) (hc : p ≤ c)
    (hlr : Sides t x c p left right (j + 1)) (N : Nat) (hN : j + 1 < N) (a : Arr K)
    (h : Line a N (tri (nL t x c) (nR t x c) s0 j) j) :
    ∃ s, forLoop (basisInner left right j) 0 (j + 1) (a, 0) = .ok s ∧
      s.1.size = N ∧ (∀ r, r ≤ j → s.1.val r = some (tri (nL t x c) (nR t x c) s0 (j + 1) r)) ∧
      s.2 = tri (nL t x c) (nR t x c) s0 (j + 1) (j + 1) := by
  obtain ⟨s, e, h1, h2, h3, h5⟩ := forLoop_inv
    (f := basisInner left right j)
    (fun r (s : Arr K × K) => s.1.size = N ∧
      (∀ i, i < r → s.1.val i = some (tri (nL t x c) (nR t x c) s0 (j + 1) i)) ∧
      (∀ i, r ≤ i → i ≤ j → s.1.val i = some (tri (nL t x c) (nR t x c) s0 j i)) ∧
      s.2 = if r = 0 then 0 else nL t x c j (r - 1) * tri (nL t x c) (nR t x c) s0 j (r - 1))
    (j + 1) 0 (a, 0) ⟨h.1, fun i hi => absurd hi (by omega), fun i _ hi => h.2 i hi, by simp⟩
    (by
      rintro r ⟨a, sv⟩ - hr ⟨h1, h2, h3, h5⟩
      simp only at h1 h2 h3 h5
      have hr' : r ≤ j := by omega
      have hrn : r < a.size := by omega
      have e1 : c - (j - r) = c - j + r := by omega
      have hden : t (c + r + 1) - x + (x - t (c - j + r)) = t (c + r + 1) - t (c - j + r) := by ring
      simp only [basisInner, Arr.rd_ok hrn (h3 r (Nat.le_refl _) hr'), Res.ok_bind,
        Arr.rd_ok (show r < right.size by rw [hlr.rsize]; omega) (hlr.rval r (by omega)),
        Arr.rd_ok (show j - r < left.size by rw [hlr.lsize]; omega) (hlr.lval (j - r) (by omega)),
        Arr.wr_ok hrn, Res.pure_eq, e1, hden]
      refine ⟨_, rfl, by simpa using h1, ?_, ?_, ?_⟩
      · intro i hi
        rw [Arr.set_val]
        split
        · subst i
          congr 1
          rw [tri, if_neg (show r ≠ j + 1 by omega), h5, nR]
          congr 1
          ring
        · exact h2 i (by omega)
      · intro i hi hi'
        rw [Arr.set_val, if_neg (by omega)]
        exact h3 i (by omega) hi'
      · rw [if_neg (by omega), nL]
        simp only [Nat.add_sub_cancel]
        ring)
  refine ⟨s, e, h1, fun r hr => h2 r (by omega), ?_⟩
  rw [h5, if_neg (by omega), tri, if_neg (by omega), if_pos rfl, add_zero]
  simp

/-- The values of the knots on both sides of the cell. -/
theorem Is.sideKnots (h : u.Is p n t) {c j : Nat} (hc : p ≤ c) (hc' : c < p + n) (hj : j < p) :
    u.knot (BitVec.ofNat 64 c - BitVec.ofNat 64 j) = .ok (t (c - j)) ∧
    u.knot (BitVec.ofNat 64 c + BitVec.ofNat 64 j + 1) = .ok (t (c + j + 1)) := by
  rw [ofNat_sub (by omega), h.knot (by omega), ← BitVec.ofNat_add, ofNat_succ, h.knot (by omega)]
  exact ⟨rfl, rfl⟩

theorem Is.triangle (h : u.Is p n t) {x s0 : K} {c : Nat} (hc : p ≤ c) (hc' : c < p + n) (q : Nat)
    (hq : q ≤ p) (a : Arr K) (N : Nat) (hN : q < N) (hs : a.size = N) (h0 : a.val 0 = some s0) :
    ∃ s, forLoop (u.basisOuter (BitVec.ofNat 64 c) x) 0 q ⟨a, Arr.uninit p, Arr.uninit p⟩ = .ok s ∧
      Line s.values N (tri (nL t x c) (nR t x c) s0 q) q := by
  obtain ⟨s, e, h1, _⟩ := forLoop_inv (f := u.basisOuter (BitVec.ofNat 64 c) x)
    (fun j s => Line s.values N (tri (nL t x c) (nR t x c) s0 j) j ∧
      Sides t x c p s.left s.right j) q 0 ⟨a, Arr.uninit p, Arr.uninit p⟩
    ⟨⟨hs, fun r hr => by obtain rfl : r = 0 := by omega
                         exact h0⟩, rfl, rfl, fun i hi => absurd hi (by omega),
      fun i hi => absurd hi (by omega)⟩
    (by
      rintro j ⟨a, left, right⟩ - hj ⟨h1, h2⟩
      simp only at h1 h2
      obtain ⟨s', e', h3, h4, h5⟩ := basisInner_ok (show j < p by omega) hc h2.next N (by omega) a h1
      have k := h.sideKnots hc hc' (show j < p by omega)
      simp only [basisOuter, k.1, k.2, Res.ok_bind,
        Arr.wr_ok (show j < left.size by rw [h2.lsize]; omega),
        Arr.wr_ok (show j < right.size by rw [h2.rsize]; omega), e',
        Arr.wr_ok (show j + 1 < s'.1.size by rw [h3]; omega), Res.pure_eq]
      refine ⟨_, rfl, ⟨by simpa using h3, fun r hr => ?_⟩, h2.next⟩
      rw [Arr.set_val]
      split
      · subst r; rw [h5]
      · exact h4 r (by omega))
  exact ⟨s, e, by simpa using h1⟩

end NUBS

end DDC
