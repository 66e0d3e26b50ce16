import Verif.Props.C31

/-!
# C34 — the cell search ends and returns the cell containing the point
-/

namespace DDC.Props

open One

set_option linter.unusedSectionVars false

variable {K : Type} [Field K] [LinearOrder K] [IsStrictOrderedRing K]

/-- Uniform B-splines, inside of the interval: the cell and the position of `x` in it. -/
theorem C34_uniform_partial [FloorRing K] (p : Nat) (hp : 0 < p) (per : Bool) (a b : K) (hab : a < b) (n : Nat)
    (hn : 0 < n) (hn' : n < 2 ^ 31) (hs : n + 1 + 2 * p < 2 ^ 63) (u : UBS K)
    (hu : UBS.mk' p per a b (BitVec.ofNat 64 n) = .ok u) (x : K) (h1 : a ≤ x) (h2 : x ≤ b) :
    ∃ (i : Nat) (o : K), u.getIcellAndOffset x = .ok ((i : Int), o) ∧ i < n ∧
      x = a + ((i : K) + o) * ((b - a) / (n : K)) ∧ 0 ≤ o ∧ o ≤ 1 ∧ (o = 1 ↔ x = b) := by
  obtain rfl := ubs_of_mk hp hab hn hs hu
  obtain ⟨i, o, e, h3, h4, h5, h6, h7, _⟩ := ubs_cell (p := p) (per := per) hab hn hn' hs ⟨h1, h2⟩
  refine ⟨i, o, e, h3, ?_, h4, h5, h6⟩
  rw [h7, uniformKnot_step, uniformKnot_first]
  ring

/-- Uniform B-splines, outside of the interval: within the tolerance the first or the last cell,
otherwise the search aborts. -/
theorem C34_uniform_outside [FloorRing K] (p : Nat) (hp : 0 < p) (per : Bool) (a b : K) (hab : a < b)
    (n : Nat) (hn : 0 < n) (hn' : n < 2 ^ 31) (hs : n + 1 + 2 * p < 2 ^ 63) (u : UBS K)
    (hu : UBS.mk' p per a b (BitVec.ofNat 64 n) = .ok u) (x : K) :
    (a - (b - a) / 10 ^ 14 ≤ x → x ≤ a → u.getIcellAndOffset x = .ok (0, 0)) ∧
    (b ≤ x → x ≤ b + (b - a) / 10 ^ 14 → u.getIcellAndOffset x = .ok ((n : Int) - 1, 1)) ∧
    (x < a - (b - a) / 10 ^ 14 ∨ b + (b - a) / 10 ^ 14 < x → u.getIcellAndOffset x = .abort) := by
  obtain rfl := ubs_of_mk hp hab hn hs hu
  have ht : (b - a) * tol = (b - a) / 10 ^ 14 := by rw [tol]; ring
  have ht0 : 0 ≤ (b - a) / 10 ^ 14 := div_nonneg (by linarith) (by positivity)
  have e1 : (BitVec.ofNat 64 n - 1 : U64) = BitVec.ofNat 64 (n - 1) := by
    rw [show (1 : U64) = BitVec.ofNat 64 1 from rfl, ofNat_sub (by omega)]
  have hin : a - (b - a) / 10 ^ 14 ≤ x → x ≤ b + (b - a) / 10 ^ 14 → UBS.checkInside x a b = .ok () := by
    intro h1 h2
    have d1 : decide (-(b - a) * tol ≤ x - a) = true := by
      simp only [decide_eq_true_eq]; linarith
    have d2 : decide (-(b - a) * tol ≤ b - x) = true := by
      simp only [decide_eq_true_eq]; linarith
    simp only [UBS.checkInside, d1, d2]; rfl
  refine ⟨fun h1 h2 => ?_, fun h1 h2 => ?_, fun h => ?_⟩
  · simp only [UBS.getIcellAndOffset, ubs_rmin hs, ubs_rmax hn hs, hin h1 (by linarith), Res.ok_bind,
      ubs_ncells, if_pos h2, Res.pure_eq]
  · simp only [UBS.getIcellAndOffset, ubs_rmin hs, ubs_rmax hn hs, hin (by linarith) h2, Res.ok_bind,
      ubs_ncells, if_neg (show ¬ x ≤ a from not_le.2 (by linarith)), if_pos h1, Res.pure_eq, e1,
      sizeToInt_ofNat (show n - 1 < 2 ^ 31 by omega)]
    congr 2
    omega
  · have hc : UBS.checkInside x a b = .abort := by
      rcases h with h | h
      · have : decide (-(b - a) * tol ≤ x - a) = false := by
          simp only [decide_eq_false_iff_not, not_le]; linarith
        simp only [UBS.checkInside, this]; rfl
      · have : decide (-(b - a) * tol ≤ b - x) = false := by
          simp only [decide_eq_false_iff_not, not_le]; linarith
        simp only [UBS.checkInside, this]
        cases decide (-(b - a) * tol ≤ x - a) <;> rfl
    simp only [UBS.getIcellAndOffset, ubs_rmin hs, ubs_rmax hn hs, hc, Res.ok_bind, Res.abort_bind]

/-- Non-uniform B-splines: for all sorted break points (not all equal) and all `x` in the domain the
search ends; it returns the knot `p + i` at the beginning of a cell `i` with
`breaks[i] ≤ x < breaks[i + 1]`, the last cell for `x` the last break point. -/
theorem C34_non_uniform (p : Nat) (hp : 0 < p) (per : Bool) (breaks : List K) (hl : 2 ≤ breaks.length)
    (hb : Increasing breaks) (hs : breaks.length + 2 * p < 2 ^ 63)
    (hlt : breaks[0] < breaks[breaks.length - 1]) (u : NUBS K) (hu : NUBS.mk' p per breaks = .ok u)
    (x : K) (h1 : breaks[0] ≤ x) (h2 : x ≤ breaks[breaks.length - 1]) :
    ∃ (i : Nat) (hi : i + 1 < breaks.length),
      u.findCellStart x = .ok (el1 (BitVec.ofNat 64 (p + i))) ∧
      (x = breaks[0] → i = 0) ∧ (x = breaks[breaks.length - 1] → i = breaks.length - 2) ∧
      (breaks[0] < x → x < breaks[breaks.length - 1] → breaks[i] ≤ x ∧ x < breaks[i + 1]) := by
  obtain ⟨u', t, e, -, hu', hk⟩ := NUBS.mk'_is hp per hl hs hb hlt
  rw [hu] at e
  obtain rfl := Res.ok.inj e
  have ea : t p = breaks[0] := by
    have := hk.inner 0 (by omega)
    rwa [Nat.add_zero] at this
  have eb : t (p + (breaks.length - 1)) = breaks[breaks.length - 1] := hk.inner _ (by omega)
  obtain ⟨c, e, h3, h4, h5, h6, h7⟩ := hu'.findCellStart (x := x) (by rw [ea, eb]; exact hlt)
    (by rw [ea, eb]; exact ⟨h1, h2⟩)
  rw [ea, eb] at *
  have hc : p + (c - p) = c := by omega
  refine ⟨c - p, by omega, by rw [hc]; exact e, fun h => by have := h5 h; omega,
    fun h => by have := h6 h; omega, fun h h' => ?_⟩
  have := h7 h h'
  rw [← hk.inner (c - p) (by omega), ← hk.inner (c - p + 1) (by omega), ← Nat.add_assoc, hc]
  exact this

/-- Non-uniform B-splines, outside of the domain: within the tolerance the first or the last cell,
otherwise the search aborts. -/
theorem C34_non_uniform_outside (p : Nat) (hp : 0 < p) (per : Bool) (breaks : List K)
    (hl : 2 ≤ breaks.length) (hb : Increasing breaks) (hs : breaks.length + 2 * p < 2 ^ 63)
    (hlt : breaks[0] < breaks[breaks.length - 1]) (u : NUBS K) (hu : NUBS.mk' p per breaks = .ok u)
    (x a b : K) (ha : breaks[0] = a) (hb' : breaks[breaks.length - 1] = b) :
    (a - (b - a) / 10 ^ 14 ≤ x → x ≤ a → u.findCellStart x = .ok (el1 (BitVec.ofNat 64 p))) ∧
    (b ≤ x → x ≤ b + (b - a) / 10 ^ 14 →
      u.findCellStart x = .ok (el1 (BitVec.ofNat 64 (p + (breaks.length - 2))))) ∧
    (x < a - (b - a) / 10 ^ 14 ∨ b + (b - a) / 10 ^ 14 < x → u.findCellStart x = .abort) := by
  obtain ⟨u', t, e, -, hu', hk⟩ := NUBS.mk'_is hp per hl hs hb hlt
  rw [hu] at e
  obtain rfl := Res.ok.inj e
  have ea : t p = a := by
    have := hk.inner 0 (by omega)
    rw [Nat.add_zero, ha] at this
    exact this
  have eb : t (p + (breaks.length - 1)) = b := by rw [hk.inner _ (by omega), hb']
  rw [ha, hb'] at hlt
  have ht : (b - a) * tol = (b - a) / 10 ^ 14 := by rw [tol]; ring
  have ht0 : 0 ≤ (b - a) / 10 ^ 14 := div_nonneg (by linarith) (by positivity)
  have hin : a - (b - a) / 10 ^ 14 ≤ x → x ≤ b + (b - a) / 10 ^ 14 → UBS.checkInside x a b = .ok () := by
    intro h1 h2
    have d1 : decide (-(b - a) * tol ≤ x - a) = true := by
      simp only [decide_eq_true_eq]; linarith
    have d2 : decide (-(b - a) * tol ≤ b - x) = true := by
      simp only [decide_eq_true_eq]; linarith
    simp only [UBS.checkInside, d1, d2]; rfl
  have hbk : Dom.back u.breakDom = .ok (el () (p + (breaks.length - 1))) := by
    rw [hu'.breakDom, back_nat () (by omega)]; rfl
  refine ⟨fun h1 h2 => ?_, fun h1 h2 => ?_, fun h => ?_⟩
  · simp only [NUBS.findCellStart, hu'.rmin, hu'.rmax, ea, eb, hin h1 (by linarith), Res.ok_bind,
      if_pos h2, hbk]
    rw [hu'.breakDom]
    rfl
  · simp only [NUBS.findCellStart, hu'.rmin, hu'.rmax, ea, eb, hin (by linarith) h2, Res.ok_bind,
      if_neg (show ¬ x ≤ a from not_le.2 (by linarith)), if_pos h1, hbk]
    rw [show Elem.subInt (el () (p + (breaks.length - 1))) 1 =
      .ok [((), BitVec.ofNat 64 (p + (breaks.length - 1)) - 1)]
      from rfl, show (1 : U64) = BitVec.ofNat 64 1 from rfl, ofNat_sub (by omega)]
    rw [show p + (breaks.length - 1) - 1 = p + (breaks.length - 2) by omega]
    rfl
  · have hc : UBS.checkInside x a b = .abort := by
      rcases h with h | h
      · have : decide (-(b - a) * tol ≤ x - a) = false := by
          simp only [decide_eq_false_iff_not, not_le]; linarith
        simp only [UBS.checkInside, this]; rfl
      · have : decide (-(b - a) * tol ≤ b - x) = false := by
          simp only [decide_eq_false_iff_not, not_le]; linarith
        simp only [UBS.checkInside, this]
        cases decide (-(b - a) * tol ≤ x - a) <;> rfl
    simp only [NUBS.findCellStart, hu'.rmin, hu'.rmax, ea, eb, hc, Res.ok_bind, Res.abort_bind]

/-- Third cell of four, at its beginning, and the last point. -/
example : (UBS.mk' 2 false (0 : Rat) 2 4 >>= fun u => u.getIcellAndOffset 1) = .ok (2, 0) ∧
    (UBS.mk' 2 false (0 : Rat) 2 4 >>= fun u => u.getIcellAndOffset 2) = .ok (3, 1) ∧
    (NUBS.mk' 3 false [(0 : Rat), 1, 3, 4, 6, 6, 7] >>= fun u => u.findCellStart 6) = .ok (el1 8) := by
  decide +kernel

end DDC.Props
