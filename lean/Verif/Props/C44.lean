import Verif.Props.C45

/-!
# C44: extrapolation

Inside the closed domain the value is that of the spline, whatever the rules; outside, the rule of the first dimension
(in the order of the template parameters) that is outside on its lower or upper side gives the result; a periodic
dimension never uses its rules, the coordinate is brought back into the domain by a multiple of the period.
-/

set_option linter.unusedSectionVars false

namespace DDC.Props

open One Dom Spec Eval

variable {K : Type} [Field K] [LinearOrder K] [IsStrictOrderedRing K] [FloorRing K]

variable {bs : BSpl K} {per : Bool} {p n : Nat} {t : Nat → K}

/-- The reduction of the coordinate. -/
theorem C44_wrap (h : bs.Is per p n t) (x : K) :
    ∃ y, wrap bs x = .ok y ∧ Spec.Reduced per (t p) (t (p + n)) x y := by
  have hab := h.ends
  have hL : 0 < t (p + n) - t p := sub_pos.2 hab
  rw [wrap, h.periodic]
  cases per with
  | false => exact ⟨x, rfl, fun _ => rfl, by simp, by simp, fun _ _ => rfl⟩
  | true =>
    rw [if_pos rfl, h.rmin, Res.ok_bind, h.rmax, Res.ok_bind]
    split_ifs with hx
    · rw [BSpl.length, h.rmin, h.rmax]
      simp only [Res.ok_bind]
      refine ⟨_, rfl, by simp, fun _ => ?_, fun _ => ⟨⌊(x - t p) / (t (p + n) - t p)⌋, by ring⟩, fun h1 h2 => ?_⟩
      · have h1 := Int.floor_le ((x - t p) / (t (p + n) - t p))
        have h2 := Int.lt_floor_add_one ((x - t p) / (t (p + n) - t p))
        rw [le_div_iff₀ hL] at h1
        rw [div_lt_iff₀ hL] at h2
        constructor <;> linarith
      · rcases hx with hx | hx
        · exact absurd h1 (not_le.2 hx)
        · exact absurd h2 (not_le.2 hx)
    · rw [not_or, not_lt, not_lt] at hx
      exact ⟨x, rfl, by simp, fun _ => hx, fun _ => ⟨0, by simp⟩, fun _ _ => rfl⟩

theorem needs_none {s : Side K} (h : s.bs.Is per p n t) {x : K} (hx : per = true ∨ (t p ≤ x ∧ x ≤ t (p + n))) :
    needs s x = .ok none := by
  rw [needs, h.periodic]
  cases per with
  | true => rfl
  | false =>
    simp only [Bool.false_eq_true, false_or] at hx
    rw [if_neg (by simp), h.rmin, Res.ok_bind, if_neg (not_lt.2 hx.1), h.rmax, Res.ok_bind, if_neg (not_lt.2 hx.2)]

theorem needs_lower {s : Side K} (h : s.bs.Is false p n t) {x : K} (hx : x < t p) : needs s x = .ok (some s.lower) := by
  rw [needs, h.periodic, if_neg (by simp), h.rmin, Res.ok_bind, if_pos hx]

theorem needs_upper {s : Side K} (h : s.bs.Is false p n t) {x : K} (hx : t (p + n) < x) :
    needs s x = .ok (some s.upper) := by
  rw [needs, h.periodic, if_neg (by simp), h.rmin, Res.ok_bind, if_neg (not_lt.2 (h.ends.trans hx).le), h.rmax, Res.ok_bind,
    if_pos hx]

/-! ## Any number of dimensions -/

/-- With one dimension, the evaluator in any number of dimensions is the evaluator in one dimension, on all inputs. -/
theorem C44_one (s : Side K) (x : K) (coef : Coefs K) : evalN [s] [x] coef = eval1 s x coef := by
  simp only [evalN, eval1, List.zip_cons_cons, List.zip_nil_right, List.mapM_cons, List.mapM_nil, Res.pure_eq, Res.ok_bind,
    bind_assoc, firstRule]
  refine bind_congr fun y => bind_congr fun r => ?_
  cases r with
  | some r => rfl
  | none => exact C45_one (s.bs, none, y) coef

/-- With two dimensions, it is the evaluator in two dimensions, on all inputs. -/
theorem C44_two (s1 s2 : Side K) (x1 x2 : K) (coef : Coefs K) :
    evalN [s1, s2] [x1, x2] coef = eval2 s1 s2 x1 x2 coef := by
  simp only [evalN, eval2, List.zip_cons_cons, List.zip_nil_right, List.mapM_cons, List.mapM_nil, Res.pure_eq, Res.ok_bind,
    bind_assoc, firstRule]
  refine bind_congr fun y1 => bind_congr fun y2 => bind_congr fun r => ?_
  cases r with
  | some r => rfl
  | none =>
    simp only [bind_assoc]
    refine bind_congr fun r => ?_
    cases r with
    | some r => rfl
    | none => exact C45_two (s1.bs, none, y1) (s2.bs, none, y2) coef

/-- With three dimensions, it is the evaluator in three dimensions, on all inputs. -/
theorem C44_three (s1 s2 s3 : Side K) (x1 x2 x3 : K) (coef : Coefs K) :
    evalN [s1, s2, s3] [x1, x2, x3] coef = eval3 s1 s2 s3 x1 x2 x3 coef := by
  simp only [evalN, eval3, List.zip_cons_cons, List.zip_nil_right, List.mapM_cons, List.mapM_nil, Res.pure_eq, Res.ok_bind,
    bind_assoc, firstRule]
  refine bind_congr fun y1 => bind_congr fun y2 => bind_congr fun y3 => bind_congr fun r => ?_
  cases r with
  | some r => rfl
  | none =>
    simp only [bind_assoc]
    refine bind_congr fun r => ?_
    cases r with
    | some r => rfl
    | none =>
      simp only [bind_assoc]
      refine bind_congr fun r => ?_
      cases r with
      | some r => rfl
      | none => exact C45_three (s1.bs, none, y1) (s2.bs, none, y2) (s3.bs, none, y3) coef

/-- The description of a dimension: periodicity, degree, number of cells and knots. -/
structure Desc (K : Type) where
  per : Bool
  p : Nat
  n : Nat
  t : Nat → K

/-- The first and the last point of the domain. -/
def Desc.a (d : Desc K) : K := d.t d.p
def Desc.b (d : Desc K) : K := d.t (d.p + d.n)

/-- The evaluator's dimension is described by `d`. -/
def Desc.Of (d : Desc K) (s : Side K) : Prop := s.bs.Is d.per d.p d.n d.t

/-- The number of B-splines and their values at a point. -/
def Desc.weights (d : Desc K) (y : K) : Nat × (Nat → K) := (d.n + d.p, fun J => bspline d.t d.b d.p J y)

theorem wraps {ds : List (Desc K)} {sides : List (Side K)} (h : List.Forall₂ Desc.Of ds sides) {x : List K}
    (hx : x.length = ds.length) : ∃ y, ((List.zip sides x).mapM fun d => wrap d.1.bs d.2) = .ok y ∧
      List.Forall₂ (fun d (xy : K × K) => Spec.Reduced d.per d.a d.b xy.1 xy.2) ds (List.zip x y) ∧
      y.length = ds.length := by
  induction h generalizing x with
  | nil => exact ⟨[], by simp, by simp, rfl⟩
  | cons hd _ ih =>
    obtain ⟨x0, x, rfl⟩ := List.exists_cons_of_length_eq_add_one hx
    obtain ⟨y, h1, h2, h3⟩ := ih (by simpa using hx)
    obtain ⟨y0, g1, g2⟩ := C44_wrap hd x0
    refine ⟨y0 :: y, ?_, .cons g2 h2, by simpa using h3⟩
    rw [List.zip_cons_cons, List.mapM_cons, g1, Res.ok_bind, h1]
    rfl

/-- Where every coordinate is inside the domain of its dimension or the dimension is periodic, the value is that of the
spline at the reduced coordinates, whatever the rules. -/
theorem C44_inside {ds : List (Desc K)} {sides : List (Side K)} (hne : ds ≠ []) (h : List.Forall₂ Desc.Of ds sides) {x : List K}
    (hx : x.length = ds.length)
    (hin : List.Forall₂ (fun (d : Desc K) x => d.per = true ∨ (d.a ≤ x ∧ x ≤ d.b)) ds x) {coef : Coefs K}
    {c : List Nat → K} (hc : Holds (ds.map fun d => d.n + d.p) coef c) :
    ∃ y, List.Forall₂ (fun d (xy : K × K) => Spec.Reduced d.per d.a d.b xy.1 xy.2) ds (List.zip x y) ∧
      y.length = ds.length ∧ evalN sides x coef = .ok (tensor (List.zipWith Desc.weights ds y) c) := by
  obtain ⟨y, h1, h2, h3⟩ := wraps h hx
  refine ⟨y, h2, h3, ?_⟩
  have key : firstRule (List.zip sides y) = .ok none ∧
      List.Forall₂ InDomain ((List.zip sides y).map fun d => (d.1.bs, none, d.2)) (List.zipWith Desc.weights ds y) ∧
      (List.zipWith Desc.weights ds y).map (·.1) = ds.map fun d => d.n + d.p := by
    clear h1 hc hne
    induction h generalizing x y with
    | nil => exact ⟨rfl, .nil, rfl⟩
    | @cons d s ds sides hd _ ih =>
      obtain ⟨x0, x, rfl⟩ := List.exists_cons_of_length_eq_add_one hx
      obtain ⟨y0, y, rfl⟩ := List.exists_cons_of_length_eq_add_one h3
      obtain ⟨g1, g2⟩ := List.forall₂_cons.1 hin
      rw [List.zip_cons_cons] at h2
      obtain ⟨k1, k2⟩ := List.forall₂_cons.1 h2
      obtain ⟨e1, e2, e3⟩ := ih (by simpa using hx) g2 y k2 (by simpa using h3)
      have hy : d.a ≤ y0 ∧ y0 ≤ d.b := by
        rcases g1 with g1 | g1
        · exact k1.inside g1
        · have := k1.fixed g1.1 g1.2; dsimp only at this; rw [this]; exact g1
      refine ⟨?_, .cons ?_ e2, ?_⟩
      · rw [List.zip_cons_cons, firstRule, needs_none hd (Or.inr hy), Res.ok_bind]
        exact e1
      · exact ⟨d.per, d.p, d.n, d.t, none, hd, rfl, fun k hk => by simp at hk, hy.1, hy.2, rfl, fun J => rfl⟩
      · rw [List.zipWith_cons_cons, List.map_cons, List.map_cons, e3]
        rfl
  rw [evalN, h1, Res.ok_bind, key.1, Res.ok_bind]
  refine C45_nd ?_ key.2.1 (by rw [key.2.2]; exact hc)
  intro he
  have := congrArg List.length he
  have hl := h.length_eq
  rw [List.length_map, List.length_zip, h3, ← hl, Nat.min_self] at this
  exact hne (List.length_eq_zero_iff.1 this)

/-- Where the dimension number `k` is the first one that is outside, the result is that of its rule on that side, applied
to the reduced coordinates. -/
theorem C44_outside {ds ds' : List (Desc K)} {d : Desc K} {sides sides' : List (Side K)} {s : Side K} {x x' : List K} {x0 : K}
    (h : List.Forall₂ Desc.Of ds sides) (h' : List.Forall₂ Desc.Of ds' sides') (hd : d.Of s) (hx' : x'.length = ds'.length)
    (hin : List.Forall₂ (fun (d : Desc K) x => d.per = true ∨ (d.a ≤ x ∧ x ≤ d.b)) ds x) (hper : d.per = false)
    (coef : Coefs K) : ∃ y y', List.Forall₂ (fun d (xy : K × K) => Spec.Reduced d.per d.a d.b xy.1 xy.2) ds (List.zip x y) ∧
      y.length = ds.length ∧
      List.Forall₂ (fun d (xy : K × K) => Spec.Reduced d.per d.a d.b xy.1 xy.2) ds' (List.zip x' y') ∧
      y'.length = ds'.length ∧
      (x0 < d.a → evalN (sides ++ s :: sides') (x ++ x0 :: x') coef = s.lower (y ++ x0 :: y') coef) ∧
      (d.b < x0 → evalN (sides ++ s :: sides') (x ++ x0 :: x') coef = s.upper (y ++ x0 :: y') coef) := by
  have hxl : x.length = ds.length := hin.length_eq.symm
  obtain ⟨y, h1, h2, h3⟩ := wraps h hxl
  obtain ⟨y', h1', h2', h3'⟩ := wraps h' hx'
  refine ⟨y, y', h2, h3, h2', h3', ?_⟩
  have e0 : wrap s.bs x0 = .ok x0 := by
    obtain ⟨z, e, hz⟩ := C44_wrap hd x0
    rw [e, hz.same hper]
  have hl := h.length_eq
  have em : ((List.zip (sides ++ s :: sides') (x ++ x0 :: x')).mapM fun d => wrap d.1.bs d.2) = .ok (y ++ x0 :: y') := by
    rw [List.zip_append (by omega), List.mapM_append, h1, Res.ok_bind, List.zip_cons_cons, List.mapM_cons, e0, Res.ok_bind, h1']
    rfl
  have ef : ∀ tl, firstRule (List.zip sides y ++ tl) = firstRule tl := by
    clear h1 hl em h'
    intro tl
    induction h generalizing x y with
    | nil => rfl
    | @cons d s ds sides hd _ ih =>
      obtain ⟨x0, x, rfl⟩ := List.exists_cons_of_length_eq_add_one hxl
      obtain ⟨y0, y, rfl⟩ := List.exists_cons_of_length_eq_add_one h3
      obtain ⟨g1, g2⟩ := List.forall₂_cons.1 hin
      rw [List.zip_cons_cons] at h2
      obtain ⟨k1, k2⟩ := List.forall₂_cons.1 h2
      have hy : d.a ≤ y0 ∧ y0 ≤ d.b := by
        rcases g1 with g1 | g1
        · exact k1.inside g1
        · have := k1.fixed g1.1 g1.2; dsimp only at this; rw [this]; exact g1
      rw [List.zip_cons_cons, List.cons_append, firstRule, needs_none hd (Or.inr hy), Res.ok_bind]
      exact ih g2 (by simpa using hxl) y k2 (by simpa using h3)
  have hd' : s.bs.Is false d.p d.n d.t := hper ▸ hd
  have ez : List.zip (sides ++ s :: sides') (y ++ x0 :: y') = List.zip sides y ++ (s, x0) :: List.zip sides' y' := by
    rw [List.zip_append (by omega), List.zip_cons_cons]
  constructor <;> intro hx
  · rw [evalN, em, Res.ok_bind, ez, ef, firstRule, needs_lower hd' hx, Res.ok_bind, Res.ok_bind]
  · rw [evalN, em, Res.ok_bind, ez, ef, firstRule, needs_upper hd' hx, Res.ok_bind, Res.ok_bind]

/-! ## One dimension -/

/-- The coefficients of a spline in one dimension. -/
theorem noBc1_value (h : bs.Is per p n t) {x : K} (h1 : t p ≤ x) (h2 : x ≤ t (p + n)) {coef : Coefs K} {c : Nat → K}
    (hc : ∀ J, J < n + p → coef [BitVec.ofNat 64 J] = .ok (c J)) :
    noBc1 bs none x coef = .ok (splineValue t p n c x) :=
  C45_1d (d := (bs, none, x)) (s := (n + p, fun J => bspline t (t (p + n)) p J x))
    ⟨per, p, n, t, none, h, rfl, fun k hk => by simp at hk, h1, h2, rfl, fun _ => rfl⟩ hc

/-- Inside the closed domain, the value of the spline. -/
theorem C44_inside_1d {s : Side K} (h : s.bs.Is per p n t) {x : K} (h1 : t p ≤ x) (h2 : x ≤ t (p + n)) {coef : Coefs K}
    {c : Nat → K} (hc : ∀ J, J < n + p → coef [BitVec.ofNat 64 J] = .ok (c J)) :
    eval1 s x coef = .ok (splineValue t p n c x) := by
  obtain ⟨y, e, hy⟩ := C44_wrap h x
  rw [hy.fixed h1 h2] at e
  rw [eval1, e, Res.ok_bind, needs_none h (Or.inr ⟨h1, h2⟩), Res.ok_bind]
  exact noBc1_value h h1 h2 hc

/-- A periodic dimension does not use the rules: the value is that of the spline at the reduced coordinate. -/
theorem C44_periodic_1d {s : Side K} (h : s.bs.Is true p n t) (x : K) {coef : Coefs K}
    {c : Nat → K} (hc : ∀ J, J < n + p → coef [BitVec.ofNat 64 J] = .ok (c J)) :
    ∃ y, Spec.Reduced true (t p) (t (p + n)) x y ∧ eval1 s x coef = .ok (splineValue t p n c y) := by
  obtain ⟨y, e, hy⟩ := C44_wrap h x
  have hin := hy.inside rfl
  refine ⟨y, hy, ?_⟩
  rw [eval1, e, Res.ok_bind, needs_none h (Or.inl rfl), Res.ok_bind]
  exact noBc1_value h hin.1 hin.2 hc

/-- Outside, the rule of that side. -/
theorem C44_outside_1d {s : Side K} (h : s.bs.Is false p n t) (x : K) (coef : Coefs K) :
    (x < t p → eval1 s x coef = s.lower [x] coef) ∧ (t (p + n) < x → eval1 s x coef = s.upper [x] coef) := by
  obtain ⟨y, e, hy⟩ := C44_wrap h x
  rw [hy.same rfl] at e
  constructor <;> intro hx
  · rw [eval1, e, Res.ok_bind, needs_lower h hx, Res.ok_bind]
  · rw [eval1, e, Res.ok_bind, needs_upper h hx, Res.ok_bind]

/-- The null rule gives zero. -/
theorem C44_null {s : Side K} (h : s.bs.Is false p n t) (hl : s.lower = nullRule) (hu : s.upper = nullRule) {x : K}
    (hx : x < t p ∨ t (p + n) < x) (coef : Coefs K) : eval1 s x coef = .ok 0 := by
  rcases hx with hx | hx
  · rw [(C44_outside_1d h x coef).1 hx, hl]; rfl
  · rw [(C44_outside_1d h x coef).2 hx, hu]; rfl

theorem evalBasis_jmin (bs : BSpl K) (x : K) : jminVals bs none x = (do
    let (v, e) ← bs.evalBasis (Arr.uninit (bs.degree + 1)) x
    let j ← uid1 e
    .ok (v, j)) := rfl

/-- The constant rule evaluates the spline at its position, wherever the coordinate is. -/
theorem C44_constant (bs : BSpl K) (pos : K) (x : List K) (coef : Coefs K) :
    constantRule1 bs pos x coef = noBc1 bs none pos coef := by
  rw [constantRule1, noBc1, evalBasis_jmin]
  simp only [bind_assoc, Res.ok_bind]

/-- With the constant rules at the ends of the domain, the value is that of the spline at the nearest point of the
domain. -/
theorem C44_constant_1d {s : Side K} (h : s.bs.Is false p n t) (hl : s.lower = constantRule1 s.bs (t p))
    (hu : s.upper = constantRule1 s.bs (t (p + n))) (x : K) {coef : Coefs K}
    {c : Nat → K} (hc : ∀ J, J < n + p → coef [BitVec.ofNat 64 J] = .ok (c J)) :
    eval1 s x coef = .ok (splineValue t p n c (max (t p) (min x (t (p + n))))) := by
  have hab := h.ends
  rcases lt_or_ge x (t p) with h1 | h1
  · rw [(C44_outside_1d h x coef).1 h1, hl, C44_constant, noBc1_value h (le_refl _) hab.le hc,
      min_eq_left (h1.trans hab).le, max_eq_left h1.le]
  · rcases lt_or_ge (t (p + n)) x with h2 | h2
    · rw [(C44_outside_1d h x coef).2 h2, hu, C44_constant, noBc1_value h hab.le (le_refl _) hc, min_eq_right h2.le,
        max_eq_right hab.le]
    · rw [C44_inside_1d h h1 h2 hc, min_eq_left h2, max_eq_right h1]

/-! ## Two dimensions -/

/-- The value at a point of the spline in two dimensions. -/
def splineValue2 (d1 d2 : Desc K) (c : Nat → Nat → K) (x1 x2 : K) : K :=
  ∑ J1 ∈ Finset.range (d1.n + d1.p), ∑ J2 ∈ Finset.range (d2.n + d2.p),
    c J1 J2 * bspline d1.t d1.b d1.p J1 x1 * bspline d2.t d2.b d2.p J2 x2

/-- The chunk of the coefficients in two dimensions. -/
def Holds2 (d1 d2 : Desc K) (coef : Coefs K) (c : Nat → Nat → K) : Prop :=
  ∀ J1 J2, J1 < d1.n + d1.p → J2 < d2.n + d2.p → coef [BitVec.ofNat 64 J1, BitVec.ofNat 64 J2] = .ok (c J1 J2)

theorem noBc2_value {d1 d2 : Desc K} {s1 s2 : Side K} (h1 : d1.Of s1) (h2 : d2.Of s2) {x1 x2 : K}
    (i1 : d1.a ≤ x1 ∧ x1 ≤ d1.b) (i2 : d2.a ≤ x2 ∧ x2 ≤ d2.b) {coef : Coefs K} {c : Nat → Nat → K}
    (hc : Holds2 d1 d2 coef c) : noBc2 s1.bs s2.bs none none x1 x2 coef = .ok (splineValue2 d1 d2 c x1 x2) :=
  C45_2d (d1 := (s1.bs, none, x1)) (d2 := (s2.bs, none, x2)) (s1 := d1.weights x1) (s2 := d2.weights x2)
    ⟨_, _, _, _, none, h1, rfl, fun k hk => by simp at hk, i1.1, i1.2, rfl, fun _ => rfl⟩
    ⟨_, _, _, _, none, h2, rfl, fun k hk => by simp at hk, i2.1, i2.2, rfl, fun _ => rfl⟩ hc

theorem clamp_eq {x lo hi : K} (h : lo ≤ hi) : clamp x lo hi = .ok (max lo (min x hi)) := by
  rw [clamp, if_neg (not_lt.2 h)]
  congr 1
  split_ifs with h1 h2
  · rw [min_eq_left (h1.le.trans h), max_eq_left h1.le]
  · rw [min_eq_right h2.le, max_eq_right h]
  · rw [min_eq_left (not_lt.1 h2), max_eq_right (not_lt.1 h1)]

/-- The constant rule in two dimensions evaluates the spline at its position in its dimension and at the nearest point of
its interval in the other one (or at the coordinate itself if the other dimension is periodic). -/
theorem C44_constant_rule_2d (first : Bool) (b1 b2 : BSpl K) (per : Bool) (pos : K) {lo hi : K} (hlo : lo ≤ hi) (x1 x2 : K)
    (coef : Coefs K) : constantRule2 first b1 b2 per pos lo hi [x1, x2] coef =
      if first then noBc2 b1 b2 none none pos (if per then x2 else max lo (min x2 hi)) coef
      else noBc2 b1 b2 none none (if per then x1 else max lo (min x1 hi)) pos coef := by
  simp only [constantRule2, noBc2, evalBasis_jmin, bind_assoc, Res.ok_bind]
  cases first <;> cases per <;> simp [clamp_eq hlo]

/-- The four constant rules of a rectangle. -/
structure Constant2 (d1 d2 : Desc K) (s1 s2 : Side K) : Prop where
  lower1 : s1.lower = constantRule2 true s1.bs s2.bs d2.per d1.a d2.a d2.b
  upper1 : s1.upper = constantRule2 true s1.bs s2.bs d2.per d1.b d2.a d2.b
  lower2 : s2.lower = constantRule2 false s1.bs s2.bs d1.per d2.a d1.a d1.b
  upper2 : s2.upper = constantRule2 false s1.bs s2.bs d1.per d2.b d1.a d1.b

/-- With the constant rules at the ends of the domain, in two dimensions, the value is that of the spline at the nearest
point of the rectangle, also in the corners. -/
theorem C44_constant_2d {d1 d2 : Desc K} {s1 s2 : Side K} (h1 : d1.Of s1) (h2 : d2.Of s2) (hr : Constant2 d1 d2 s1 s2)
    (p1 : d1.per = false) (p2 : d2.per = false) (x1 x2 : K) {coef : Coefs K} {c : Nat → Nat → K}
    (hc : Holds2 d1 d2 coef c) : eval2 s1 s2 x1 x2 coef =
      .ok (splineValue2 d1 d2 c (max d1.a (min x1 d1.b)) (max d2.a (min x2 d2.b))) := by
  have hab1 : d1.a < d1.b := BSpl.Is.ends h1
  have hab2 : d2.a < d2.b := BSpl.Is.ends h2
  have h1' : s1.bs.Is false d1.p d1.n d1.t := p1 ▸ h1
  have h2' : s2.bs.Is false d2.p d2.n d2.t := p2 ▸ h2
  have e1 : wrap s1.bs x1 = .ok x1 := by
    obtain ⟨z, e, hz⟩ := C44_wrap h1' x1
    rw [e, hz.same rfl]
  have e2 : wrap s2.bs x2 = .ok x2 := by
    obtain ⟨z, e, hz⟩ := C44_wrap h2' x2
    rw [e, hz.same rfl]
  have in1 : d1.a ≤ max d1.a (min x1 d1.b) ∧ max d1.a (min x1 d1.b) ≤ d1.b :=
    ⟨le_max_left _ _, max_le hab1.le (min_le_right _ _)⟩
  have in2 : d2.a ≤ max d2.a (min x2 d2.b) ∧ max d2.a (min x2 d2.b) ≤ d2.b :=
    ⟨le_max_left _ _, max_le hab2.le (min_le_right _ _)⟩
  rw [eval2, e1, Res.ok_bind, e2, Res.ok_bind]
  rcases lt_or_ge x1 d1.a with g1 | g1
  · rw [needs_lower h1' g1, Res.ok_bind, hr.lower1]
    dsimp only
    rw [C44_constant_rule_2d _ _ _ _ _ hab2.le, if_pos rfl, p2, if_neg (by simp),
      noBc2_value h1 h2 ⟨le_refl _, hab1.le⟩ in2 hc, min_eq_left (g1.trans hab1).le, max_eq_left g1.le]
  rcases lt_or_ge d1.b x1 with g1' | g1'
  · rw [needs_upper h1' g1', Res.ok_bind, hr.upper1]
    dsimp only
    rw [C44_constant_rule_2d _ _ _ _ _ hab2.le, if_pos rfl, p2, if_neg (by simp),
      noBc2_value h1 h2 ⟨hab1.le, le_refl _⟩ in2 hc, min_eq_right g1'.le, max_eq_right hab1.le]
  rw [needs_none h1' (Or.inr ⟨g1, g1'⟩), Res.ok_bind]
  dsimp only
  have f1 : max d1.a (min x1 d1.b) = x1 := by rw [min_eq_left g1', max_eq_right g1]
  rcases lt_or_ge x2 d2.a with g2 | g2
  · rw [needs_lower h2' g2, Res.ok_bind, hr.lower2]
    dsimp only
    rw [C44_constant_rule_2d _ _ _ _ _ hab1.le, if_neg (by simp), p1, if_neg (by simp),
      noBc2_value h1 h2 in1 ⟨le_refl _, hab2.le⟩ hc, min_eq_left (g2.trans hab2).le, max_eq_left g2.le]
  rcases lt_or_ge d2.b x2 with g2' | g2'
  · rw [needs_upper h2' g2', Res.ok_bind, hr.upper2]
    dsimp only
    rw [C44_constant_rule_2d _ _ _ _ _ hab1.le, if_neg (by simp), p1, if_neg (by simp),
      noBc2_value h1 h2 in1 ⟨hab2.le, le_refl _⟩ hc, min_eq_right g2'.le, max_eq_right hab2.le]
  rw [needs_none h2' (Or.inr ⟨g2, g2'⟩), Res.ok_bind]
  dsimp only
  rw [noBc2_value h1 h2 ⟨g1, g1'⟩ ⟨g2, g2'⟩ hc, f1, min_eq_left g2', max_eq_right g2]

/-- The same when the second dimension is periodic: nearest point in the first one, reduced coordinate in the second. -/
theorem C44_constant_2d_periodic {d1 d2 : Desc K} {s1 s2 : Side K} (h1 : d1.Of s1) (h2 : d2.Of s2) (hl : s1.lower = constantRule2Per true s1.bs s2.bs d1.a)
    (hu : s1.upper = constantRule2Per true s1.bs s2.bs d1.b)
    (p1 : d1.per = false) (p2 : d2.per = true) (x1 x2 : K) {coef : Coefs K} {c : Nat → Nat → K}
    (hc : Holds2 d1 d2 coef c) : ∃ y2, Spec.Reduced true d2.a d2.b x2 y2 ∧ eval2 s1 s2 x1 x2 coef =
      .ok (splineValue2 d1 d2 c (max d1.a (min x1 d1.b)) y2) := by
  have hab1 : d1.a < d1.b := BSpl.Is.ends h1
  have h1' : s1.bs.Is false d1.p d1.n d1.t := p1 ▸ h1
  have h2' : s2.bs.Is true d2.p d2.n d2.t := p2 ▸ h2
  have e1 : wrap s1.bs x1 = .ok x1 := by
    obtain ⟨z, e, hz⟩ := C44_wrap h1' x1
    rw [e, hz.same rfl]
  obtain ⟨y2, e2, hy⟩ := C44_wrap h2' x2
  have in2 := hy.inside rfl
  refine ⟨y2, hy, ?_⟩
  rw [eval2, e1, Res.ok_bind, e2, Res.ok_bind]
  rcases lt_or_ge x1 d1.a with g1 | g1
  · rw [needs_lower h1' g1, Res.ok_bind, hl]
    dsimp only
    rw [constantRule2Per, C44_constant_rule_2d _ _ _ _ _ (le_refl _), if_pos rfl, if_pos rfl,
      noBc2_value h1 h2 ⟨le_refl _, hab1.le⟩ in2 hc, min_eq_left (g1.trans hab1).le, max_eq_left g1.le]
  rcases lt_or_ge d1.b x1 with g1' | g1'
  · rw [needs_upper h1' g1', Res.ok_bind, hu]
    dsimp only
    rw [constantRule2Per, C44_constant_rule_2d _ _ _ _ _ (le_refl _), if_pos rfl, if_pos rfl,
      noBc2_value h1 h2 ⟨hab1.le, le_refl _⟩ in2 hc, min_eq_right g1'.le, max_eq_right hab1.le]
  rw [needs_none h1' (Or.inr ⟨g1, g1'⟩), Res.ok_bind]
  dsimp only
  rw [needs_none h2' (Or.inl rfl), Res.ok_bind]
  dsimp only
  rw [noBc2_value h1 h2 ⟨g1, g1'⟩ in2 hc, min_eq_left g1', max_eq_right g1]

/-- A case that meets the hypotheses: a rectangle with constant rules on its four sides, evaluated in a corner. -/
example (c : Nat → Nat → Rat) : ∃ (u1 u2 : UBS Rat) (d1 d2 : Desc Rat), UBS.mk' 2 false (0 : Rat) 3 3 = .ok u1 ∧
    UBS.mk' 3 false (0 : Rat) 4 4 = .ok u2 ∧
    (let b1 : BSpl Rat := .uniform u1
     let b2 : BSpl Rat := .uniform u2
     eval2 ⟨b1, constantRule2 true b1 b2 false 0 0 4, constantRule2 true b1 b2 false 3 0 4⟩
      ⟨b2, constantRule2 false b1 b2 false 0 0 3, constantRule2 false b1 b2 false 4 0 3⟩ (-5) 9
      (fun l => .ok (c l.headI.toNat l.tail.headI.toNat)) = .ok (splineValue2 d1 d2 c 0 4)) := by
  obtain ⟨u1, e1, h1⟩ := BSpl.is_uniform (p := 2) (by norm_num) false (a := (0 : Rat)) (b := 3) (by norm_num) (n := 3)
    (by norm_num) (by norm_num)
  obtain ⟨u2, e2, h2⟩ := BSpl.is_uniform (p := 3) (by norm_num) false (a := (0 : Rat)) (b := 4) (by norm_num) (n := 4)
    (by norm_num) (by norm_num)
  have a1 : (⟨false, 2, 3, uniformKnot (0 : Rat) 3 3 2⟩ : Desc Rat).a = 0 := by decide +kernel
  have b1 : (⟨false, 2, 3, uniformKnot (0 : Rat) 3 3 2⟩ : Desc Rat).b = 3 := by decide +kernel
  have a2 : (⟨false, 3, 4, uniformKnot (0 : Rat) 4 4 3⟩ : Desc Rat).a = 0 := by decide +kernel
  have b2 : (⟨false, 3, 4, uniformKnot (0 : Rat) 4 4 3⟩ : Desc Rat).b = 4 := by decide +kernel
  refine ⟨u1, u2, ⟨false, 2, 3, uniformKnot (0 : Rat) 3 3 2⟩, ⟨false, 3, 4, uniformKnot (0 : Rat) 4 4 3⟩, e1, e2, ?_⟩
  have := C44_constant_2d (d1 := ⟨false, 2, 3, uniformKnot (0 : Rat) 3 3 2⟩) (d2 := ⟨false, 3, 4, uniformKnot (0 : Rat) 4 4 3⟩)
    (s1 := ⟨.uniform u1, constantRule2 true (.uniform u1) (.uniform u2) false 0 0 4,
      constantRule2 true (.uniform u1) (.uniform u2) false 3 0 4⟩)
    (s2 := ⟨.uniform u2, constantRule2 false (.uniform u1) (.uniform u2) false 0 0 3,
      constantRule2 false (.uniform u1) (.uniform u2) false 4 0 3⟩) h1 h2
    ⟨by rw [a1, a2, b2], by rw [b1, a2, b2], by rw [a2, a1, b1], by rw [b2, a1, b1]⟩ rfl rfl (-5) 9
    (coef := fun l => .ok (c l.headI.toNat l.tail.headI.toNat)) (c := c) (fun J1 J2 g1 g2 => by
      simp only [List.headI, List.tail, BitVec.toNat_ofNat]
      dsimp only at g1 g2
      rw [Nat.mod_eq_of_lt (by omega), Nat.mod_eq_of_lt (by omega)])
  rw [a1, b1, a2, b2] at this
  exact this

end DDC.Props
