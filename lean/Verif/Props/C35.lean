import Verif.Props.C34

/-!
# C35 — the knots extend the break points

Non-uniform B-splines: periodic or clamped extension, according to the dimension.  Uniform B-splines:
the code continues the break points with the same step on both sides, whether the dimension is periodic
or not; they are never clamped.
-/

namespace DDC.Props

open One

set_option linter.unusedSectionVars false

variable {K : Type} [Field K] [LinearOrder K] [IsStrictOrderedRing K]

/-- Specification: the knots with the indices `0, …, n + 2p` are non-decreasing and the break points are
those with the indices `p, …, p + n`. -/
structure Knots (coord : Elem Unit → Res K) (p n : Nat) (br t : Nat → K) : Prop where
  coordinate : ∀ k, k ≤ n + 2 * p → coord (el1 (BitVec.ofNat 64 k)) = .ok (t k)
  mono : ∀ i j, i ≤ j → j ≤ n + 2 * p → t i ≤ t j
  inner : ∀ i, i ≤ n → t (p + i) = br i

/-- Specification: there are `n` cells, `n + p` B-splines (`n` of them independent when periodic) and the
support of the B-spline `i` goes from the knot `i` to the knot `i + p + 1`. -/
structure Counts (per : Bool) (p n : Nat) (ncells size nbasis : Res U64) (full breakDom : Res (Dom Unit))
    (first last : Elem Unit → Res (Elem Unit)) : Prop where
  ncells : ncells = .ok (BitVec.ofNat 64 n)
  size : size = .ok (BitVec.ofNat 64 (n + p))
  nbasis : nbasis = .ok (BitVec.ofNat 64 (if per then n else n + p))
  full : full = .ok [((), (0, BitVec.ofNat 64 (n + p)))]
  break_ : breakDom = .ok [((), (BitVec.ofNat 64 p, BitVec.ofNat 64 (p + n + 1)))]
  first : ∀ i, i < n + p → first (el1 (BitVec.ofNat 64 i)) = .ok (el1 (BitVec.ofNat 64 i))
  last : ∀ i, i < n + p → last (el1 (BitVec.ofNat 64 i)) = .ok (el1 (BitVec.ofNat 64 (i + p + 1)))

/-- Non-uniform B-splines of every degree `p ≥ 1` on sorted break points (also with less than `p`
cells): the knots contain the break points; in the periodic case they are continued by periodicity;
otherwise the first and the last `p + 1` knots are the ends of the domain. -/
theorem C35_non_uniform (p : Nat) (hp : 0 < p) (per : Bool) (breaks : List K) (hl : 2 ≤ breaks.length)
    (hb : Increasing breaks) (hs : breaks.length + 2 * p < 2 ^ 63)
    (hlt : breaks[0] < breaks[breaks.length - 1]) :
    ∃ u t, NUBS.mk' p per breaks = .ok u ∧
      Knots u.knots.coordinate p (breaks.length - 1) (fun i => breaks[i]?.getD 0) t ∧
      (per = true → ∀ k, k ≤ 2 * p →
        t (k + (breaks.length - 1)) = t k + (breaks[breaks.length - 1] - breaks[0])) ∧
      (per = false → ∀ k, k ≤ p → t k = breaks[0] ∧
        t (p + (breaks.length - 1) + k) = breaks[breaks.length - 1]) ∧
      u.rmin = .ok breaks[0] ∧ u.rmax = .ok breaks[breaks.length - 1] := by
  obtain ⟨u, t, e, -, hu, hk⟩ := NUBS.mk'_is hp per hl hs hb hlt
  have ea : t p = breaks[0] := by
    have := hk.inner 0 (by omega)
    rwa [Nat.add_zero] at this
  have eb : t (p + (breaks.length - 1)) = breaks[breaks.length - 1] := hk.inner _ (by omega)
  refine ⟨u, t, e, ⟨fun k h => hu.coord k (by omega), fun i j h _ => hu.mono h, fun i hi => ?_⟩, ?_, ?_,
    ?_, ?_⟩
  · rw [hk.inner i (by omega)]; simp [List.getElem?_eq_getElem (show i < breaks.length by omega)]
  · intro h k hk'
    rw [hk.periodic h k hk', ea, eb]
  · intro h k hk'
    have := hk.clamped h k hk'
    rw [ea, eb] at this
    exact this
  · rw [hu.rmin, ea]
  · rw [hu.rmax, eb]

/-- The counts of the non-uniform B-splines. -/
theorem C35_non_uniform_counts (p : Nat) (hp : 0 < p) (per : Bool) (breaks : List K)
    (hl : 2 ≤ breaks.length)
    (hb : Increasing breaks) (hs : breaks.length + 2 * p < 2 ^ 63)
    (hlt : breaks[0] < breaks[breaks.length - 1]) (u : NUBS K) (hu : NUBS.mk' p per breaks = .ok u) :
    Counts per p (breaks.length - 1) u.ncells u.size u.nbasis u.fullDomain (.ok u.breakDom)
      u.firstSupportKnot u.lastSupportKnot := by
  obtain ⟨u', t, e, hper, hu', hk⟩ := NUBS.mk'_is hp per hl hs hb hlt
  rw [hu] at e
  obtain rfl := Res.ok.inj e
  have hsize : u.size = .ok (BitVec.ofNat 64 (breaks.length - 1 + p)) := by
    rw [NUBS.size, hu'.ncells, Res.ok_bind, hu'.degree, Nat.add_comm, BitVec.ofNat_add]; rfl
  have hfirst : ∀ i, i < breaks.length - 1 + p →
      u.firstSupportKnot (el1 (BitVec.ofNat 64 i)) = .ok (el1 (BitVec.ofNat 64 i)) := by
    intro i hi
    rw [NUBS.firstSupportKnot, hu'.ref, el1_eq, sub_nat () (Nat.zero_le _), Res.ok_bind,
      show Vect.value (vec () (i - 0)) = .ok (BitVec.ofNat 64 i) from rfl, Res.ok_bind, hu'.knotDom,
      One.front]
    simp [Elem.addInt, el]
  refine ⟨hu'.ncells, hsize, ?_, ?_, ?_, hfirst, ?_⟩
  · rw [NUBS.nbasis, hu'.ncells, Res.ok_bind, hu'.degree, hper]
    cases per
    · simp only [Bool.false_eq_true, if_false, BitVec.ofNat_add]; rfl
    · simp
  · rw [NUBS.fullDomain, hsize, Res.ok_bind, hu'.ref, ve1_eq, ofSize_nat, Nat.zero_add]; rfl
  · rw [hu'.breakDom]; rfl
  · intro i hi
    rw [NUBS.lastSupportKnot, hfirst i hi, Res.ok_bind, hu'.degree, el1_eq, ve1_eq, addVec_nat]; rfl

/-- Break points that are not sorted are rejected with an exception; a last break point that is not
after the first one aborts. -/
theorem C35_requires (p : Nat) (hp : 0 < p) (per : Bool) (breaks : List K) (hl : 2 ≤ breaks.length)
    (hs : breaks.length + 2 * p < 2 ^ 63) :
    (breaks[0] < breaks[breaks.length - 1] → ¬ Increasing breaks → NUBS.mk' p per breaks = .throw) ∧
    (breaks[breaks.length - 1] ≤ breaks[0] → NUBS.mk' p per breaks = .abort) :=
  ⟨fun h hb => NUBS.mk'_throw hp per hl hs hb h, fun h => NUBS.mk'_abort hp per (by omega) h⟩

/-- Uniform B-splines: the knots are equally spaced, over the whole extended range, hence in particular
periodic; `rmin` and `rmax` are the given ends. -/
theorem C35_uniform (p : Nat) (hp : 0 < p) (per : Bool) (a b : K) (hab : a < b) (n : Nat)
    (hn : 0 < n) (hs : n + 1 + 2 * p < 2 ^ 63) :
    ∃ u t, UBS.mk' p per a b (BitVec.ofNat 64 n) = .ok u ∧
      Knots u.knots.coordinate p n (fun i => a + (i : K) * ((b - a) / (n : K))) t ∧
      (∀ k, t (k + 1) - t k = (b - a) / (n : K)) ∧
      (∀ k, t (k + n) = t k + (b - a)) ∧
      u.rmin = .ok a ∧ u.rmax = .ok b := by
  refine ⟨_, Spec.uniformKnot a b n p, UBS.mk'_ok hp per hab hn hs,
    ⟨fun k h => ubs_coordinate (by omega), fun i j h _ => (uniformKnot_strictMono hab hn).monotone h,
      fun i _ => ?_⟩, fun k => ?_, fun k => ?_, ubs_rmin hs, ubs_rmax hn hs⟩
  · rw [uniformKnot_step, uniformKnot_first]
  · rw [uniformKnot_step]; simp
  · rw [uniformKnot_step]
    have : (n : K) ≠ 0 := by exact_mod_cast hn.ne'
    field_simp

/-- The counts of the uniform B-splines. -/
theorem C35_uniform_counts (p : Nat) (hp : 0 < p) (per : Bool) (a b : K) (hab : a < b) (n : Nat)
    (hn : 0 < n) (hs : n + 1 + 2 * p < 2 ^ 63) (u : UBS K)
    (hu : UBS.mk' p per a b (BitVec.ofNat 64 n) = .ok u) :
    Counts per p n u.ncells u.size u.nbasis u.fullDomain (.ok u.breakDom) u.firstSupportKnot
      u.lastSupportKnot ∧ u.length = .ok (b - a) := by
  obtain rfl := ubs_of_mk hp hab hn hs hu
  have hsize : (ubs p per a b n).size = .ok (BitVec.ofNat 64 (n + p)) := by
    rw [UBS.size, ubs_ncells, Res.ok_bind, show (ubs p per a b n).degree = p from rfl, Nat.add_comm,
      BitVec.ofNat_add]; rfl
  have hfirst : ∀ i, i < n + p →
      (ubs p per a b n).firstSupportKnot (el1 (BitVec.ofNat 64 i)) = .ok (el1 (BitVec.ofNat 64 i)) := by
    intro i hi
    rw [UBS.firstSupportKnot, show (ubs p per a b n).ref = el () 0 from rfl, el1_eq,
      sub_nat () (Nat.zero_le _), Res.ok_bind,
      show Vect.value (vec () (i - 0)) = .ok (BitVec.ofNat 64 i) from rfl, Res.ok_bind,
      show (ubs p per a b n).knotDom = seg () 0 (n + 1 + p + p) from rfl, One.front]
    simp [Elem.addInt, el]
  refine ⟨⟨ubs_ncells, hsize, ?_, ?_, rfl, hfirst, ?_⟩, ?_⟩
  · rw [UBS.nbasis, ubs_ncells, Res.ok_bind, show (ubs p per a b n).degree = p from rfl,
      show (ubs p per a b n).periodic = per from rfl]
    cases per
    · simp only [Bool.false_eq_true, if_false, BitVec.ofNat_add]; rfl
    · simp
  · rw [UBS.fullDomain, hsize, Res.ok_bind, show (ubs p per a b n).ref = el () 0 from rfl, ve1_eq,
      ofSize_nat, Nat.zero_add]; rfl
  · intro i hi
    rw [UBS.lastSupportKnot, hfirst i hi, Res.ok_bind, show (ubs p per a b n).degree = p from rfl,
      el1_eq, ve1_eq, addVec_nat]; rfl
  · rw [UBS.length, ubs_rmax hn hs, ubs_rmin hs]; rfl

/-- No cell, or an empty interval: the constructor aborts. -/
theorem C35_uniform_requires (p : Nat) (hp : 0 < p) (per : Bool) (a b : K) (n : U64)
    (h : n = 0 ∨ b ≤ a) : UBS.mk' p per a b n = .abort := by
  have h1 : decide (0 < p) = true := by simpa using hp
  by_cases hn : n = 0
  · subst hn
    simp [UBS.mk', h1]
  · have h := h.resolve_left hn
    have h2 : decide (0 < n) = true := by
      simp only [decide_eq_true_eq]
      rw [BitVec.lt_def]
      have : (0 : U64).toNat = 0 := rfl
      rw [this]
      rcases Nat.eq_zero_or_pos n.toNat with h | h
      · exact absurd (BitVec.eq_of_toNat_eq h) hn
      · exact h
    have h3 : decide (a < b) = false := decide_eq_false (not_lt.2 h)
    simp only [UBS.mk', h1, h2, Res.guardIll_true, Res.guardAbort_true, Res.ok_bind, Uniform.initGhosted,
      h3, Res.guardAbort_false, Res.abort_bind]

/-- Degree 3 with a single cell, periodic and clamped. -/
example : (NUBS.mk' 3 true [(0 : Rat), 2] >>= fun u => .ok u.knots.points) =
      .ok [-6, -4, -2, 0, 2, 4, 6, 8] ∧
    (NUBS.mk' 3 false [(0 : Rat), 2] >>= fun u => .ok u.knots.points) = .ok [0, 0, 0, 0, 2, 2, 2, 2] := by
  decide +kernel

end DDC.Props
