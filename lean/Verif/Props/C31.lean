import Verif.Lemmas.NUBS
import Verif.Props.C30

/-!
# C31 — the non-uniform B-splines are evaluated by the Cox–de Boor recursion
-/

namespace DDC.Props

open One

set_option linter.unusedSectionVars false

variable {K : Type} [Field K] [LinearOrder K] [IsStrictOrderedRing K]

/-- Break points on which B-splines can be evaluated everywhere: at least one cell, increasing, the
first and the last cells are not reduced to a point.  Strictly increasing break points are of this
kind. -/
structure GoodBreaks (breaks : List K) : Prop where
  two : 2 ≤ breaks.length
  sorted : Increasing breaks
  first : breaks[0] < breaks[1]
  last : breaks[breaks.length - 2] < breaks[breaks.length - 1]

theorem GoodBreaks.of_strict {breaks : List K} (h2 : 2 ≤ breaks.length)
    (h : ∀ i j (_ : i < j) (_ : j < breaks.length), breaks[i] < breaks[j]) : GoodBreaks breaks where
  two := h2
  sorted i j hij hj := by
    rcases Nat.lt_or_eq_of_le hij with h1 | rfl
    · exact (h i j h1 hj).le
    · exact le_refl _
  first := h 0 1 (by omega) (by omega)
  last := h (breaks.length - 2) (breaks.length - 1) (by omega) (by omega)

theorem GoodBreaks.lt {breaks : List K} (h : GoodBreaks breaks) :
    breaks[0]'(by have := h.two; omega) <
      breaks[breaks.length - 1]'(by have := h.two; omega) :=
  lt_of_lt_of_le h.first (h.sorted 1 (breaks.length - 1) (by have := h.two; omega)
    (by have := h.two; omega))

theorem goodEnds {p : Nat} {per : Bool} {breaks : List K} {t : Nat → K} (hb : GoodBreaks breaks)
    (hk : NUBS.KnotsOf p per breaks t) :
    t p < t (p + 1) ∧ t (p + (breaks.length - 1) - 1) < t (p + (breaks.length - 1)) := by
  have h2 := hb.two
  constructor
  · have := hk.inner 0 (by omega)
    rw [Nat.add_zero] at this
    rw [this, hk.inner 1 (by omega)]
    exact hb.first
  · rw [show p + (breaks.length - 1) - 1 = p + (breaks.length - 2) by omega, hk.inner _ (by omega),
      hk.inner _ (by omega)]
    exact hb.last

/-- `eval_basis` on B-splines with the knots `t`. -/
theorem nubs_evalBasis {u : NUBS K} {p n : Nat} {t : Nat → K} (hu : u.Is p n t) (g0 : t p < t (p + 1))
    (g1 : t (p + n - 1) < t (p + n)) (x : K) (hx1 : t p ≤ x) (hx2 : x ≤ t (p + n)) (values : Arr K)
    (hv : values.size = p + 1) :
    ∃ m v, m < n ∧ Spec.InCell t (t (p + n)) x (m + p) ∧
      u.evalBasis values x = .ok (v, el1 (BitVec.ofNat 64 m)) ∧ BasisValues t (t (p + n)) p x m v := by
  have hcl := hu.cells
  obtain ⟨c, e1, h3, h4, h5⟩ := hu.cell g0 g1 ⟨hx1, hx2⟩
  obtain ⟨s, e2, hl⟩ := hu.triangle (x := x) (s0 := 1) h3 h4 p (le_refl _) (values.set 0 1) (p + 1)
    (by omega) (by simpa using hv) (by rw [Arr.set_val, if_pos rfl])
  have hx := h5.le
  have hab : t p < t (p + n) := lt_of_lt_of_le g0 (hu.mono (by omega))
  have hd : decide (values.size = u.degree + 1) = true := by rw [hu.degree]; exact decide_eq_true hv
  have hcp : p + (c - p) = c := by omega
  refine ⟨c - p, s.values, by omega, by rw [Nat.sub_add_cancel h3]; exact h5, ?_, ?_⟩
  · rw [NUBS.evalBasis, hd, Res.guardAbort_true, Res.ok_bind, hu.rmin, Res.ok_bind, hu.rmax, Res.ok_bind,
      checkInside_ok hab ⟨hx1, hx2⟩, Res.ok_bind, e1, Res.ok_bind, NUBS.uid1_el, Res.ok_bind,
      hu.checkCell h3 h4 hx, Res.ok_bind, Arr.wr_ok (by omega), Res.ok_bind, hu.degree, e2, Res.ok_bind,
      hu.firstBspline h3 h4]
    rfl
  · have h5' : Spec.InCell t (t (p + n)) x (c - p + p) := by
      rw [Nat.sub_add_cancel h3]; exact h5
    refine basisValues_of hu.mono h5' hl.1 (fun r hr => ?_)
    rw [hl.2 r hr, tri_bspline (L := NUBS.nL t x c) (R := NUBS.nR t x c) hu.mono h5 1 p h3
      (fun j r _ _ => rfl) (fun j r _ _ => rfl) p r
      (le_refl _) hr, one_mul]

/-- For every degree `p ≥ 1`, every list of break points and every `x` between the first and the last
one, the B-splines can be constructed; their knots are an increasing sequence `t`, containing the break
points from the index `p` on; `eval_basis` returns the values of all the B-splines on `t` that do not
vanish at `x` and the index of the first of them. -/
theorem C31_eval_basis (p : Nat) (hp : 0 < p) (per : Bool) (breaks : List K) (hb : GoodBreaks breaks)
    (hs : breaks.length + 2 * p < 2 ^ 63) :
    ∃ u t, NUBS.mk' p per breaks = .ok u ∧ Monotone t ∧
      (∀ i (h : i < breaks.length), t (p + i) = breaks[i]) ∧
      (∀ k, k < breaks.length + 2 * p → u.knots.coordinate (el1 (BitVec.ofNat 64 k)) = .ok (t k)) ∧
      ∀ x, t p ≤ x → x ≤ t (p + (breaks.length - 1)) → ∀ values : Arr K, values.size = p + 1 →
        ∃ m v, m < breaks.length - 1 ∧ t (p + m) ≤ x ∧ x ≤ t (p + m + 1) ∧
          u.evalBasis values x = .ok (v, el1 (BitVec.ofNat 64 m)) ∧
          BasisValues t (t (p + (breaks.length - 1))) p x m v := by
  have h2 := hb.two
  obtain ⟨u, t, e, -, hu, hk⟩ := NUBS.mk'_is hp per hb.two hs hb.sorted hb.lt
  obtain ⟨g0, g1⟩ := goodEnds hb hk
  refine ⟨u, t, e, hu.mono, hk.inner, fun k hk => hu.coord k (by omega), fun x hx1 hx2 values hv => ?_⟩
  obtain ⟨m, v, k1, k2, k3⟩ := nubs_evalBasis hu g0 g1 x hx1 hx2 values hv
  rw [Nat.add_comm m p] at k2
  exact ⟨m, v, k1, k2.le.1, k2.le.2, k3⟩

/-- An array of the wrong size or a point outside of the domain by more than the tolerance aborts. -/
theorem C31_requires (p : Nat) (hp : 0 < p) (per : Bool) (breaks : List K) (hb : GoodBreaks breaks)
    (hs : breaks.length + 2 * p < 2 ^ 63) (u : NUBS K) (hu : NUBS.mk' p per breaks = .ok u) (x : K)
    (values : Arr K) (a b : K) (ha : breaks[0]? = some a)
    (hb' : breaks[breaks.length - 1]? = some b)
    (h : values.size ≠ p + 1 ∨ x < a - (b - a) / 10 ^ 14 ∨ b + (b - a) / 10 ^ 14 < x) :
    u.evalBasis values x = .abort := by
  have h2 := hb.two
  obtain ⟨u', t, e, -, hu', hk⟩ := NUBS.mk'_is hp per hb.two hs hb.sorted hb.lt
  rw [hu] at e
  obtain rfl := Res.ok.inj e
  rw [List.getElem?_eq_getElem (by omega)] at ha hb'
  have ea : t p = a := by
    have := hk.inner 0 (by omega)
    rw [Nat.add_zero] at this
    rw [this]; exact Option.some.inj ha
  have eb : t (p + (breaks.length - 1)) = b := by
    rw [hk.inner _ (by omega)]; exact Option.some.inj hb'
  by_cases hv : values.size = p + 1
  · have h := h.resolve_left (fun e => e hv)
    have hd : decide (values.size = p + 1) = true := by simpa using hv
    have ht : (b - a) * tol = (b - a) / 10 ^ 14 := by rw [tol]; ring
    have hc : UBS.checkInside x a b = .abort := by
      rcases h with h | h
      · have : decide (-(b - a) * tol ≤ x - a) = false := by
          simp only [decide_eq_false_iff_not, not_le]; linarith
        simp only [UBS.checkInside, this]; rfl
      · have : decide (-(b - a) * tol ≤ b - x) = false := by
          simp only [decide_eq_false_iff_not, not_le]; linarith
        simp only [UBS.checkInside, this]
        cases decide (-(b - a) * tol ≤ x - a) <;> rfl
    simp only [NUBS.evalBasis, hu'.degree, hd, hu'.rmin, hu'.rmax, ea, eb, hc, Res.guardAbort_true,
      Res.ok_bind, Res.abort_bind]
  · have hd : decide (values.size = p + 1) = false := by simpa using hv
    simp only [NUBS.evalBasis, hu'.degree, hd]
    rfl

/-- Quadratic B-splines on three cells of different lengths. -/
example : GoodBreaks [(0 : Rat), 1, 3, 4] :=
  ⟨by decide, (isSorted_iff _).1 (by decide +kernel), by decide +kernel, by decide +kernel⟩

example :
    ((NUBS.mk' 2 false [(0 : Rat), 1, 3, 4] >>= fun u => u.evalBasis (Arr.uninit 3) 2) >>=
      fun r => r.1.toList >>= fun l => .ok (l, r.2)) = .ok ([1 / 6, 2 / 3, 1 / 6], el1 1) := by
  decide +kernel

end DDC.Props
