import Verif.Model.RoundedEval
import Verif.Props.C61c
import Verif.Props.C63

/-!
# C72 — the evaluators in several dimensions with rounding: periodic coordinates and extrapolation
-/

namespace DDC.Props

open DDC.One Rounded Spec Finset

variable {fl : Rat → Rat}

/-- One dimension of an evaluator, a coordinate and the ends of the domain. -/
structure SDim where
  s : Side
  x : Rat
  r : Rat
  R : Rat

/-- The ends are those of the B-splines.  In a periodic dimension the coordinate, as well as the origin, is at most 16
periods away (see `C58_far_aborts`). -/
structure SDim.Is (fl : Rat → Rat) (d : SDim) : Prop where
  rmin : d.s.b.rmin fl = .ok d.r
  rmax : d.s.b.rmax fl = .ok d.R
  lt : d.r < d.R
  near : d.s.per = true → |d.x - d.r| ≤ 16 * fl (d.R - d.r) ∧ |d.r| ≤ 16 * fl (d.R - d.r)

/-- No extrapolation in this dimension. -/
def SDim.Inside (d : SDim) : Prop := d.s.per = true ∨ (d.r ≤ d.x ∧ d.x ≤ d.R)

/-- The reduced coordinate: `x` itself, except in a periodic dimension if it is out of the domain; it then differs from `x` by
a whole number of periods and at most `2⁻⁴⁷` period, and is inside of the domain up to `2⁻⁴⁶` period. -/
def SDim.Reduced (d : SDim) (z : Rat) : Prop :=
  (d.s.per = false → z = d.x) ∧
  (d.s.per = true → (d.r ≤ d.x → d.x ≤ d.R → z = d.x) ∧
    (∃ m : Int, |z + m * (d.R - d.r) - d.x| ≤ 1 / 2 ^ 47 * (d.R - d.r)) ∧
    d.r - 1 / 2 ^ 46 * (d.R - d.r) ≤ z ∧ z ≤ d.R + 1 / 2 ^ 46 * (d.R - d.r))

theorem SDim.Is.wrap (hfl : RoundsAll fl) {d : SDim} (h : d.Is fl) : ∃ z, d.s.wrap fl d.x = .ok z ∧ d.Reduced z := by
  rw [Side.wrap]
  cases hp : d.s.per with
  | false => exact ⟨d.x, by simp, fun _ => rfl, fun h => by simp [hp] at h⟩
  | true =>
    obtain ⟨n1, n2⟩ := h.near hp
    have hD : 0 < d.R - d.r := sub_pos.2 h.lt
    have hc : 88 / 2 ^ 53 * (d.R - d.r) ≤ 1 / 2 ^ 46 * (d.R - d.r) := mul_le_mul_of_nonneg_right (by norm_num) hD.le
    obtain ⟨m, w1, w2, w3⟩ := wrapOf_near hfl h.lt n1 n2
    refine ⟨wrapOf fl d.r d.R d.x, by rw [if_pos rfl, h.rmin, Res.ok_bind, h.rmax, Res.ok_bind], fun h => by simp [hp] at h,
      fun _ => ⟨fun h1 h2 => ?_, ⟨m, w1.trans (mul_le_mul_of_nonneg_right (by norm_num) hD.le)⟩, by linarith, by linarith⟩⟩
    rw [wrapOf, if_neg]
    rw [not_or, not_lt, not_lt]; exact ⟨h1, h2⟩

theorem SDim.Is.needs {d : SDim} (h : d.Is fl) {z : Rat} (hz : d.Reduced z) :
    (d.Inside → d.s.needs fl z = .ok none) ∧
    (d.s.per = false → d.x < d.r → d.s.needs fl z = .ok (some d.s.lower)) ∧
    (d.s.per = false → d.R < d.x → d.s.needs fl z = .ok (some d.s.upper)) := by
  rw [Side.needs]
  cases hp : d.s.per with
  | true => exact ⟨fun _ => by simp, fun h => by simp at h, fun h => by simp at h⟩
  | false =>
    obtain rfl := hz.1 hp
    have hlt := h.lt
    simp only [Bool.false_eq_true, if_false, h.rmin, h.rmax, Res.ok_bind]
    refine ⟨fun hi => ?_, fun _ h1 => by rw [if_pos h1], fun _ h1 => by rw [if_neg (by linarith), if_pos h1]⟩
    rcases hi with hi | ⟨h1, h2⟩
    · simp [hp] at hi
    · rw [if_neg (not_lt.2 h1), if_neg (not_lt.2 h2)]

theorem sides_wrap (hfl : RoundsAll fl) (ds : List SDim) (h : ∀ d ∈ ds, d.Is fl) :
    ∃ zs, List.Forall₂ SDim.Reduced ds zs ∧
      ((List.zip (ds.map (·.s)) (ds.map (·.x))).mapM fun d => d.1.wrap fl d.2) = .ok zs := by
  induction ds with
  | nil => exact ⟨[], .nil, rfl⟩
  | cons d ds ih =>
    obtain ⟨z, e, hz⟩ := (h d List.mem_cons_self).wrap hfl
    obtain ⟨zs, hzs, e'⟩ := ih fun x hx => h x (List.mem_cons_of_mem _ hx)
    refine ⟨z :: zs, .cons hz hzs, ?_⟩
    rw [List.map_cons, List.map_cons, List.zip_cons_cons, List.mapM_cons, e, Res.ok_bind, e', Res.ok_bind]
    rfl

theorem rule_none (ds : List SDim) (h : ∀ d ∈ ds, d.Is fl) (hi : ∀ d ∈ ds, d.Inside) {zs : List Rat}
    (hz : List.Forall₂ SDim.Reduced ds zs) : firstRule fl (List.zip (ds.map (·.s)) zs) = .ok none := by
  induction hz with
  | nil => rfl
  | @cons d z ds zs hd _ ih =>
    rw [List.map_cons, List.zip_cons_cons, firstRule, ((h d List.mem_cons_self).needs hd).1 (hi d List.mem_cons_self),
      Res.ok_bind]
    exact ih (fun x hx => h x (List.mem_cons_of_mem _ hx)) (fun x hx => hi x (List.mem_cons_of_mem _ hx))

theorem rule_first (A : List SDim) (d : SDim) (B : List SDim) (h : ∀ e ∈ A ++ d :: B, e.Is fl) (hi : ∀ e ∈ A, e.Inside) {zs : List Rat}
    (hz : List.Forall₂ SDim.Reduced (A ++ d :: B) zs) {r : Eval.Rule Rat}
    (hr : ∀ z, d.Reduced z → d.s.needs fl z = .ok (some r)) :
    firstRule fl (List.zip ((A ++ d :: B).map (·.s)) zs) = .ok (some r) := by
  induction A generalizing zs with
  | nil =>
    cases hz with
    | @cons _ z _ zs hd _ =>
      rw [List.nil_append, List.map_cons, List.zip_cons_cons, firstRule, hr z hd, Res.ok_bind]
  | cons a A ih =>
    cases hz with
    | @cons _ z _ zs hd hz =>
      rw [List.cons_append, List.map_cons, List.zip_cons_cons, firstRule, ((h a (by simp)).needs hd).1 (hi a (by simp)),
        Res.ok_bind]
      exact ih (fun x hx => h x (List.mem_cons_of_mem _ hx)) (fun x hx => hi x (List.mem_cons_of_mem _ hx)) hz

/-- In any number of dimensions: the coordinates of the periodic dimensions are reduced; if a coordinate of a dimension that
is not periodic is out of the domain, the result is that of the rule of that end, for the first such dimension, applied to the
reduced coordinates; otherwise the spline is evaluated at the reduced coordinates. -/
theorem C72_dispatch_nd (hfl : RoundsAll fl) {ds : List SDim} (h : ∀ d ∈ ds, d.Is fl) (coef : Coefs Rat) :
    ∃ zs, List.Forall₂ SDim.Reduced ds zs ∧
      ((∀ d ∈ ds, d.Inside) → Rounded.evalN fl (ds.map (·.s)) (ds.map (·.x)) coef =
        Rounded.noBcN fl (List.zipWith (fun d z => (d.s.b, none, z)) ds zs) coef) ∧
      ∀ A d B, ds = A ++ d :: B → (∀ e ∈ A, e.Inside) → d.s.per = false →
        (d.x < d.r → Rounded.evalN fl (ds.map (·.s)) (ds.map (·.x)) coef = d.s.lower zs coef) ∧
        (d.R < d.x → Rounded.evalN fl (ds.map (·.s)) (ds.map (·.x)) coef = d.s.upper zs coef) := by
  obtain ⟨zs, hz, e⟩ := sides_wrap hfl ds h
  refine ⟨zs, hz, fun hi => ?_, fun A d B hd hA hp => ⟨fun hx => ?_, fun hx => ?_⟩⟩
  · rw [Rounded.evalN, e, Res.ok_bind, rule_none ds h hi hz, Res.ok_bind]
    dsimp only
    congr 1
    clear e h hi
    induction hz with
    | nil => rfl
    | cons _ _ ih => simpa using ih
  · rw [Rounded.evalN, e, Res.ok_bind]
    subst hd
    rw [rule_first A d B h hA hz fun z hz => ((h d (by simp)).needs hz).2.1 hp hx, Res.ok_bind]
  · rw [Rounded.evalN, e, Res.ok_bind]
    subst hd
    rw [rule_first A d B h hA hz fun z hz => ((h d (by simp)).needs hz).2.2 hp hx, Res.ok_bind]

/-- In two dimensions. -/
theorem C72_dispatch_2d (hfl : RoundsAll fl) {d1 d2 : SDim} (h1 : d1.Is fl) (h2 : d2.Is fl) (coef : Coefs Rat) :
    ∃ z1 z2, d1.Reduced z1 ∧ d2.Reduced z2 ∧
      (d1.Inside → d2.Inside → Rounded.eval2 fl d1.s d2.s d1.x d2.x coef =
        Rounded.noBc2 fl d1.s.b d2.s.b none none z1 z2 coef) ∧
      (d1.s.per = false → d1.x < d1.r → Rounded.eval2 fl d1.s d2.s d1.x d2.x coef = d1.s.lower [z1, z2] coef) ∧
      (d1.s.per = false → d1.R < d1.x → Rounded.eval2 fl d1.s d2.s d1.x d2.x coef = d1.s.upper [z1, z2] coef) ∧
      (d1.Inside → d2.s.per = false → d2.x < d2.r →
        Rounded.eval2 fl d1.s d2.s d1.x d2.x coef = d2.s.lower [z1, z2] coef) ∧
      (d1.Inside → d2.s.per = false → d2.R < d2.x →
        Rounded.eval2 fl d1.s d2.s d1.x d2.x coef = d2.s.upper [z1, z2] coef) := by
  obtain ⟨z1, e1, k1⟩ := h1.wrap hfl
  obtain ⟨z2, e2, k2⟩ := h2.wrap hfl
  obtain ⟨a1, a2, a3⟩ := h1.needs k1
  obtain ⟨b1, b2, b3⟩ := h2.needs k2
  refine ⟨z1, z2, k1, k2, fun i1 i2 => ?_, fun p x => ?_, fun p x => ?_, fun i p x => ?_, fun i p x => ?_⟩ <;>
    rw [Rounded.eval2, e1, Res.ok_bind, e2, Res.ok_bind]
  · rw [a1 i1, Res.ok_bind, b1 i2, Res.ok_bind]
  · rw [a2 p x, Res.ok_bind]
  · rw [a3 p x, Res.ok_bind]
  · rw [a1 i, Res.ok_bind, b2 p x, Res.ok_bind]
  · rw [a1 i, Res.ok_bind, b3 p x, Res.ok_bind]

/-- In three dimensions. -/
theorem C72_dispatch_3d (hfl : RoundsAll fl) {d1 d2 d3 : SDim} (h1 : d1.Is fl) (h2 : d2.Is fl) (h3 : d3.Is fl) (coef : Coefs Rat) :
    ∃ z1 z2 z3, d1.Reduced z1 ∧ d2.Reduced z2 ∧ d3.Reduced z3 ∧
      (d1.Inside → d2.Inside → d3.Inside → Rounded.eval3 fl d1.s d2.s d3.s d1.x d2.x d3.x coef =
        Rounded.noBc3 fl d1.s.b d2.s.b d3.s.b none none none z1 z2 z3 coef) ∧
      (d1.s.per = false → d1.x < d1.r →
        Rounded.eval3 fl d1.s d2.s d3.s d1.x d2.x d3.x coef = d1.s.lower [z1, z2, z3] coef) ∧
      (d1.s.per = false → d1.R < d1.x →
        Rounded.eval3 fl d1.s d2.s d3.s d1.x d2.x d3.x coef = d1.s.upper [z1, z2, z3] coef) ∧
      (d1.Inside → d2.s.per = false → d2.x < d2.r →
        Rounded.eval3 fl d1.s d2.s d3.s d1.x d2.x d3.x coef = d2.s.lower [z1, z2, z3] coef) ∧
      (d1.Inside → d2.s.per = false → d2.R < d2.x →
        Rounded.eval3 fl d1.s d2.s d3.s d1.x d2.x d3.x coef = d2.s.upper [z1, z2, z3] coef) ∧
      (d1.Inside → d2.Inside → d3.s.per = false → d3.x < d3.r →
        Rounded.eval3 fl d1.s d2.s d3.s d1.x d2.x d3.x coef = d3.s.lower [z1, z2, z3] coef) ∧
      (d1.Inside → d2.Inside → d3.s.per = false → d3.R < d3.x →
        Rounded.eval3 fl d1.s d2.s d3.s d1.x d2.x d3.x coef = d3.s.upper [z1, z2, z3] coef) := by
  obtain ⟨z1, e1, k1⟩ := h1.wrap hfl
  obtain ⟨z2, e2, k2⟩ := h2.wrap hfl
  obtain ⟨z3, e3, k3⟩ := h3.wrap hfl
  obtain ⟨a1, a2, a3⟩ := h1.needs k1
  obtain ⟨b1, b2, b3⟩ := h2.needs k2
  obtain ⟨c1, c2, c3⟩ := h3.needs k3
  refine ⟨z1, z2, z3, k1, k2, k3, fun i1 i2 i3 => ?_, fun p x => ?_, fun p x => ?_, fun i p x => ?_, fun i p x => ?_,
    fun i j p x => ?_, fun i j p x => ?_⟩ <;>
    rw [Rounded.eval3, e1, Res.ok_bind, e2, Res.ok_bind, e3, Res.ok_bind]
  · rw [a1 i1, Res.ok_bind, b1 i2, Res.ok_bind, c1 i3, Res.ok_bind]
  · rw [a2 p x, Res.ok_bind]
  · rw [a3 p x, Res.ok_bind]
  · rw [a1 i, Res.ok_bind, b2 p x, Res.ok_bind]
  · rw [a1 i, Res.ok_bind, b3 p x, Res.ok_bind]
  · rw [a1 i, Res.ok_bind, b1 j, Res.ok_bind, c2 p x, Res.ok_bind]
  · rw [a1 i, Res.ok_bind, b1 j, Res.ok_bind, c3 p x, Res.ok_bind]

/-! ## Accuracy -/

/-- The coordinate at which the spline is evaluated: `x` itself, except in a periodic dimension if it is out of the domain; it
then differs from `x` by a whole number of periods and at most `2⁻⁴⁵` period, and is inside of the domain of uniform
B-splines, inside of that of non-uniform ones up to `2⁻⁴⁶` period. -/
def SDim.Located (d : SDim) (z : Rat) : Prop :=
  (d.s.per = false → z = d.x) ∧
  (d.s.per = true → (d.r ≤ d.x → d.x ≤ d.R → z = d.x) ∧
    (∃ m : Int, |z + m * (d.R - d.r) - d.x| ≤ 1 / 2 ^ 45 * (d.R - d.r)) ∧
    d.r - 1 / 2 ^ 46 * (d.R - d.r) ≤ z ∧ z ≤ d.R + 1 / 2 ^ 46 * (d.R - d.r) ∧
    ∀ k, d.s.b = .uniform k → d.r ≤ z ∧ z ≤ d.R)

theorem SDim.Reduced.located (hfl : RoundsAll fl) {d : SDim} (h : d.Is fl) {w : Rat} (hw : d.s.wrap fl d.x = .ok w)
    (hr : d.Reduced w) : ∃ z, d.Located z ∧ d.s.b.jminVals fl none w = d.s.b.jminVals fl none z := by
  cases hp : d.s.per with
  | false => exact ⟨w, ⟨hr.1, fun h => by simp [hp] at h⟩, rfl⟩
  | true =>
    obtain ⟨q1, ⟨m, q2⟩, q3, q4⟩ := hr.2 hp
    have hD : 0 < d.R - d.r := sub_pos.2 h.lt
    have hc : 1 / 2 ^ 47 * (d.R - d.r) ≤ 1 / 2 ^ 45 * (d.R - d.r) := mul_le_mul_of_nonneg_right (by norm_num) hD.le
    have hc' : 0 ≤ 1 / 2 ^ 46 * (d.R - d.r) := by positivity
    cases hb : d.s.b with
    | nonUniform u =>
      exact ⟨w, ⟨fun h => by simp [hp] at h, fun _ => ⟨q1, ⟨m, q2.trans hc⟩, q3, q4, fun k hk => by simp [hb] at hk⟩⟩, rfl⟩
    | uniform k =>
      obtain ⟨n1, n2⟩ := h.near hp
      have hrmin := h.rmin
      have hrmax := h.rmax
      rw [hb] at hrmin hrmax
      have er : k.rmin fl = d.r := Res.ok.inj hrmin
      have eR : k.rmax fl = d.R := Res.ok.inj hrmax
      have ew : w = wrapOf fl d.r d.R d.x := by
        rw [Side.wrap, hp, if_pos rfl, h.rmin, Res.ok_bind, h.rmax, Res.ok_bind] at hw
        exact (Res.ok.inj hw).symm
      have hin := wrapOf_inside hfl h.lt n1 n2
      rw [← ew] at hin
      have hcongr : ∀ z, getIcellAndOffset fl k w = getIcellAndOffset fl k z →
          (Basis.uniform k).jminVals fl none w = (Basis.uniform k).jminVals fl none z := by
        intro z h
        simp only [Basis.jminVals, Knots.evalBasis, h]
      have hmk : ∀ z, d.r ≤ z → z ≤ d.R → |z - w| ≤ 1 / 2 ^ 46 * (d.R - d.r) → (d.r ≤ d.x → d.x ≤ d.R → z = d.x) → d.Located z :=
        fun z h1 h2 h3 h4 => ⟨fun h => by simp [hp] at h, fun _ => ⟨h4, ⟨m, by
          rw [abs_le] at q2 h3 ⊢
          norm_num at q2 h3 ⊢
          constructor <;> linarith [q2.1, q2.2, h3.1, h3.2]⟩, by linarith, by linarith, fun _ _ => ⟨h1, h2⟩⟩⟩
      by_cases c1 : w ≤ d.r
      · refine ⟨d.r, hmk d.r le_rfl h.lt.le (abs_le.2 ⟨by linarith, by linarith⟩) fun h1 h2 => ?_, hcongr _ ?_⟩
        · rw [q1 h1 h2] at c1
          exact le_antisymm h1 c1
        · rw [getIcellAndOffset, er, eR, hin, getIcellAndOffset, er, eR, inside_ok hfl le_rfl h.lt.le, if_pos c1, if_pos le_rfl]
      · by_cases c2 : d.R ≤ w
        · refine ⟨d.R, hmk d.R h.lt.le le_rfl (abs_le.2 ⟨by linarith, by linarith⟩) fun h1 h2 => ?_, hcongr _ ?_⟩
          · rw [q1 h1 h2] at c2
            exact le_antisymm c2 h2
          · rw [getIcellAndOffset, er, eR, hin, getIcellAndOffset, er, eR, inside_ok hfl h.lt.le le_rfl, if_neg c1, if_pos c2,
              if_neg (not_le.2 h.lt), if_pos le_rfl]
        · exact ⟨w, hmk w (not_le.1 c1).le (not_le.1 c2).le (by rw [sub_self, abs_zero]; exact hc') q1, rfl⟩

theorem located_list (hfl : RoundsAll fl) (ds : List SDim) (h : ∀ d ∈ ds, d.Is fl) :
    ∃ zs, List.Forall₂ SDim.Located ds zs ∧ ∀ coef, (∀ d ∈ ds, d.Inside) →
      Rounded.evalN fl (ds.map (·.s)) (ds.map (·.x)) coef =
        Rounded.noBcN fl (List.zipWith (fun d z => (d.s.b, none, z)) ds zs) coef := by
  obtain ⟨ws, hz, e⟩ := sides_wrap hfl ds h
  have key : ∃ zs, List.Forall₂ SDim.Located ds zs ∧
      ((List.zip (ds.map (·.s)) ws).map fun d => (d.1.b, (none : Option U64), d.2)).mapM (fun d => d.1.jminVals fl d.2.1 d.2.2) =
        (List.zipWith (fun (d : SDim) z => (d.s.b, (none : Option U64), z)) ds zs).mapM (fun d => d.1.jminVals fl d.2.1 d.2.2) ∧
      ((List.zip (ds.map (·.s)) ws).map fun d => (d.1.b, (none : Option U64), d.2)).map (fun d => d.1.degree + 1) =
        (List.zipWith (fun (d : SDim) z => (d.s.b, (none : Option U64), z)) ds zs).map (fun d => d.1.degree + 1) := by
    clear hz
    induction ds generalizing ws with
    | nil => exact ⟨[], .nil, by simp, by simp⟩
    | cons d ds ih =>
      rw [List.map_cons, List.map_cons, List.zip_cons_cons, List.mapM_cons] at e
      obtain ⟨w, hw, e⟩ := Res.bind_eq_ok.1 e
      obtain ⟨ws', hws, e⟩ := Res.bind_eq_ok.1 e
      obtain rfl := Res.ok.inj e
      have hd := h d List.mem_cons_self
      have hw0 : d.s.wrap fl d.x = .ok w := hw
      obtain ⟨w', hw', hred⟩ := hd.wrap hfl
      rw [hw'] at hw0
      obtain rfl := Res.ok.inj hw0
      obtain ⟨z, l1, l2⟩ := hred.located hfl hd hw'
      obtain ⟨zs, m1, m2, m3⟩ := ih (fun x hx => h x (List.mem_cons_of_mem _ hx)) ws' hws
      refine ⟨z :: zs, .cons l1 m1, ?_, ?_⟩
      · rw [List.map_cons, List.zip_cons_cons, List.map_cons, List.zipWith_cons_cons, List.mapM_cons, List.mapM_cons, m2]
        dsimp only
        rw [l2]
      · rw [List.map_cons, List.zip_cons_cons, List.map_cons, List.zipWith_cons_cons, List.map_cons, List.map_cons, m3]
  obtain ⟨zs, k1, k2, k3⟩ := key
  refine ⟨zs, k1, fun coef hi => ?_⟩
  rw [Rounded.evalN, e, Res.ok_bind, rule_none ds h hi hz, Res.ok_bind]
  dsimp only
  rw [Rounded.noBcN, Rounded.noBcN, k2, k3]

/-- In any number of dimensions, when no extrapolation takes place: the result is the value of the spline at coordinates that
differ from the given ones by whole numbers of periods in the periodic dimensions and very small distances, up to the error of
`C63_nd_partial`.
Missing: the coordinates excluded by `DimIs`, where a coefficient out of bounds may be read in uniform dimensions, and
where a periodic coordinate falls just outside of the domain of non-uniform B-splines; periodic coordinates that are more than 16
periods away. -/
theorem C72_nd_partial (hfl : RoundsAll fl) {ds : List SDim} (hne : ds ≠ []) (h : ∀ d ∈ ds, d.Is fl) (hi : ∀ d ∈ ds, d.Inside) :
    ∃ zs, List.Forall₂ SDim.Located ds zs ∧
      ∀ rs : List RDim, rs.map (fun r => (r.b, r.x)) = List.zipWith (fun d z => (d.s.b, z)) ds zs → (∀ r ∈ rs, r.Is fl) →
      (rs.map fun r => r.p + 1).prod ≤ 2 ^ 40 → ∀ (coef : Coefs Rat) (c : List Nat → Rat) (M : Rat),
      Holds (rs.map (·.size)) coef c → 0 ≤ M → (∀ l, List.Forall₂ (· < ·) l (rs.map (·.size)) → |c l| ≤ M) →
      ∃ y, Rounded.evalN fl (ds.map (·.s)) (ds.map (·.x)) coef = .ok y ∧
        |y - tensor (rs.map fun r => (r.size, r.w)) c| ≤
          tensorError (rs.map fun r => r.p + 1).prod rs.length (rs.map (·.ε)).sum * M := by
  obtain ⟨zs, k1, k2⟩ := located_list hfl ds h
  refine ⟨zs, k1, fun rs hrs hr hP coef c M hh hM hc => ?_⟩
  have hne' : rs ≠ [] := by
    rintro rfl
    cases k1 with
    | nil => exact hne rfl
    | cons _ _ => simp at hrs
  obtain ⟨y, e, hy⟩ := C63_nd_partial hfl hne' hr hP hh hM hc
  refine ⟨y, ?_, hy⟩
  rw [k2 coef hi, ← e]
  congr 1
  have h1 : rs.map (fun d => (d.b, (none : Option U64), d.x)) =
      (rs.map (fun r => (r.b, r.x))).map fun d => (d.1, (none : Option U64), d.2) := by rw [List.map_map]; rfl
  rw [h1, hrs, List.map_zipWith]

/-- In two dimensions.
Missing: the same as in `C72_nd_partial`. -/
theorem C72_2d_partial (hfl : RoundsAll fl) {d1 d2 : SDim} (h1 : d1.Is fl) (h2 : d2.Is fl) (i1 : d1.Inside) (i2 : d2.Inside) :
    ∃ z1 z2, d1.Located z1 ∧ d2.Located z2 ∧
      ∀ r1 r2 : RDim, r1.b = d1.s.b → r2.b = d2.s.b → r1.x = z1 → r2.x = z2 → r1.Is fl → r2.Is fl →
      (r1.p + 1) * (r2.p + 1) ≤ 2 ^ 40 → ∀ (coef : Coefs Rat) (c : Nat → Nat → Rat) (M : Rat),
      (∀ i j, i < r1.size → j < r2.size → coef [BitVec.ofNat 64 i, BitVec.ofNat 64 j] = .ok (c i j)) → 0 ≤ M →
      (∀ i j, i < r1.size → j < r2.size → |c i j| ≤ M) →
      ∃ y, Rounded.eval2 fl d1.s d2.s d1.x d2.x coef = .ok y ∧
        |y - ∑ i ∈ range r1.size, ∑ j ∈ range r2.size, c i j * r1.w i * r2.w j| ≤
          tensorError ((r1.p + 1) * (r2.p + 1)) 2 (r1.ε + r2.ε) * M := by
  obtain ⟨w1, e1, k1⟩ := h1.wrap hfl
  obtain ⟨w2, e2, k2⟩ := h2.wrap hfl
  obtain ⟨z1, l1, f1⟩ := k1.located hfl h1 e1
  obtain ⟨z2, l2, f2⟩ := k2.located hfl h2 e2
  refine ⟨z1, z2, l1, l2, fun r1 r2 b1 b2 x1 x2 hr1 hr2 hP coef c M hh hM hc => ?_⟩
  obtain ⟨y, e, hy⟩ := C63_2d_partial hfl hr1 hr2 hP hh hM hc
  refine ⟨y, ?_, hy⟩
  rw [Rounded.eval2, e1, Res.ok_bind, e2, Res.ok_bind, (h1.needs k1).1 i1, Res.ok_bind, (h2.needs k2).1 i2, Res.ok_bind, ← e]
  dsimp only
  rw [Rounded.noBc2, Rounded.noBc2, f1, f2, b1, b2, x1, x2]

/-- In three dimensions.
Missing: the same as in `C72_nd_partial`. -/
theorem C72_3d_partial (hfl : RoundsAll fl) {d1 d2 d3 : SDim} (h1 : d1.Is fl) (h2 : d2.Is fl) (h3 : d3.Is fl) (i1 : d1.Inside)
    (i2 : d2.Inside) (i3 : d3.Inside) :
    ∃ z1 z2 z3, d1.Located z1 ∧ d2.Located z2 ∧ d3.Located z3 ∧
      ∀ r1 r2 r3 : RDim, r1.b = d1.s.b → r2.b = d2.s.b → r3.b = d3.s.b → r1.x = z1 → r2.x = z2 → r3.x = z3 →
      r1.Is fl → r2.Is fl → r3.Is fl →
      (r1.p + 1) * (r2.p + 1) * (r3.p + 1) ≤ 2 ^ 40 → ∀ (coef : Coefs Rat) (c : Nat → Nat → Nat → Rat) (M : Rat),
      (∀ i j k, i < r1.size → j < r2.size → k < r3.size →
        coef [BitVec.ofNat 64 i, BitVec.ofNat 64 j, BitVec.ofNat 64 k] = .ok (c i j k)) → 0 ≤ M →
      (∀ i j k, i < r1.size → j < r2.size → k < r3.size → |c i j k| ≤ M) →
      ∃ y, Rounded.eval3 fl d1.s d2.s d3.s d1.x d2.x d3.x coef = .ok y ∧
        |y - ∑ i ∈ range r1.size, ∑ j ∈ range r2.size, ∑ k ∈ range r3.size, c i j k * r1.w i * r2.w j * r3.w k| ≤
          tensorError ((r1.p + 1) * (r2.p + 1) * (r3.p + 1)) 3 (r1.ε + r2.ε + r3.ε) * M := by
  obtain ⟨w1, e1, k1⟩ := h1.wrap hfl
  obtain ⟨w2, e2, k2⟩ := h2.wrap hfl
  obtain ⟨w3, e3, k3⟩ := h3.wrap hfl
  obtain ⟨z1, l1, f1⟩ := k1.located hfl h1 e1
  obtain ⟨z2, l2, f2⟩ := k2.located hfl h2 e2
  obtain ⟨z3, l3, f3⟩ := k3.located hfl h3 e3
  refine ⟨z1, z2, z3, l1, l2, l3, fun r1 r2 r3 b1 b2 b3 x1 x2 x3 hr1 hr2 hr3 hP coef c M hh hM hc => ?_⟩
  obtain ⟨y, e, hy⟩ := C63_3d_partial hfl hr1 hr2 hr3 hP hh hM hc
  refine ⟨y, ?_, hy⟩
  rw [Rounded.eval3, e1, Res.ok_bind, e2, Res.ok_bind, e3, Res.ok_bind, (h1.needs k1).1 i1, Res.ok_bind, (h2.needs k2).1 i2,
    Res.ok_bind, (h3.needs k3).1 i3, Res.ok_bind, ← e]
  dsimp only
  rw [Rounded.noBc3, Rounded.noBc3, f1, f2, f3, b1, b2, b3, x1, x2, x3]

/-! ## Constant extrapolation -/

/-- The coordinate of the domain from `r` to `R` that is the closest to `x`. -/
def nearest (r R x : Rat) : Rat := max r (min x R)

theorem needs_clamp {b : Basis} {lo up : Eval.Rule Rat} {r R : Rat} (hr : b.rmin fl = .ok r) (hR : b.rmax fl = .ok R) (hlt : r < R)
    (x : Rat) :
    (Side.needs fl ⟨b, false, lo, up⟩ x = .ok none ∧ nearest r R x = x ∧ r ≤ x ∧ x ≤ R) ∨
    (Side.needs fl ⟨b, false, lo, up⟩ x = .ok (some lo) ∧ nearest r R x = r) ∨
    (Side.needs fl ⟨b, false, lo, up⟩ x = .ok (some up) ∧ nearest r R x = R) := by
  simp only [Side.needs, Bool.false_eq_true, if_false, hr, hR, Res.ok_bind, nearest]
  by_cases h1 : x < r
  · exact Or.inr (Or.inl ⟨by rw [if_pos h1], by rw [min_eq_left (by linarith), max_eq_left h1.le]⟩)
  · by_cases h2 : R < x
    · exact Or.inr (Or.inr ⟨by rw [if_neg h1, if_pos h2], by rw [min_eq_right h2.le, max_eq_right hlt.le]⟩)
    · rw [not_lt] at h1 h2
      exact Or.inl ⟨by rw [if_neg (not_lt.2 h1), if_neg (not_lt.2 h2)], by rw [min_eq_left h2, max_eq_right h1], h1, h2⟩

theorem nearest_mem {r R : Rat} (hlt : r < R) (x : Rat) : r ≤ nearest r R x ∧ nearest r R x ≤ R :=
  ⟨le_max_left _ _, max_le hlt.le (min_le_right _ _)⟩

theorem nearest_self {r R x : Rat} (h1 : r ≤ x) (h2 : x ≤ R) : nearest r R x = x := by
  rw [nearest, min_eq_left h2, max_eq_right h1]

theorem clampR_eq {r R : Rat} (hlt : r < R) (x : Rat) : Eval.clamp x r R = .ok (nearest r R x) := by
  rw [Eval.clamp, if_neg (by linarith), nearest]
  by_cases h1 : x < r
  · rw [if_pos h1, min_eq_left (by linarith), max_eq_left h1.le]
  · rw [if_neg h1]
    by_cases h2 : R < x
    · rw [if_pos h2, min_eq_right h2.le, max_eq_right hlt.le]
    · rw [if_neg h2, min_eq_left (not_lt.1 h2), max_eq_right (not_lt.1 h1)]

theorem wrap_false {b : Basis} {lo up : Eval.Rule Rat} (x : Rat) : Side.wrap fl ⟨b, false, lo, up⟩ x = .ok x := by
  simp [Side.wrap]

/-- In one dimension, with constant rules made for the ends of the domain: the result is the very number that is the result at
the closest coordinate of the domain. -/
theorem C72_constant_1d {b : Basis} {r R : Rat} (hr : b.rmin fl = .ok r) (hR : b.rmax fl = .ok R) (hlt : r < R)
    {s : Side} (hs : s = ⟨b, false, constantRule1 fl b r, constantRule1 fl b R⟩) (x : Rat) (coef : Coefs Rat) :
    Rounded.eval1 fl s x coef = Rounded.eval1 fl s (nearest r R x) coef ∧
    Rounded.eval1 fl s x coef = Rounded.noBc1 fl b (nearest r R x) coef := by
  subst hs
  have key : ∀ x, Rounded.eval1 fl ⟨b, false, constantRule1 fl b r, constantRule1 fl b R⟩ x coef =
      Rounded.noBc1 fl b (nearest r R x) coef := by
    intro x
    rw [Rounded.eval1, wrap_false, Res.ok_bind]
    rcases needs_clamp (lo := constantRule1 fl b r) (up := constantRule1 fl b R) hr hR hlt x with ⟨e, e', -⟩ | ⟨e, e'⟩ | ⟨e, e'⟩ <;>
      rw [e, e', Res.ok_bind] <;> rfl
  obtain ⟨n1, n2⟩ := nearest_mem hlt x
  exact ⟨by rw [key, key, nearest_self n1 n2], key x⟩

/-- In two dimensions, with constant rules made for the four edges of the domain: the result is the very number that is the
result at the closest point of the domain, in the corners as well. -/
theorem C72_constant_2d {b1 b2 : Basis} {r1 R1 r2 R2 : Rat} (hr1 : b1.rmin fl = .ok r1) (hR1 : b1.rmax fl = .ok R1) (h1 : r1 < R1)
    (hr2 : b2.rmin fl = .ok r2) (hR2 : b2.rmax fl = .ok R2) (h2 : r2 < R2) {s1 s2 : Side}
    (hs1 : s1 = ⟨b1, false, constantRule2 fl true b1 b2 false r1 r2 R2, constantRule2 fl true b1 b2 false R1 r2 R2⟩)
    (hs2 : s2 = ⟨b2, false, constantRule2 fl false b1 b2 false r2 r1 R1, constantRule2 fl false b1 b2 false R2 r1 R1⟩)
    (x1 x2 : Rat) (coef : Coefs Rat) :
    Rounded.eval2 fl s1 s2 x1 x2 coef = Rounded.eval2 fl s1 s2 (nearest r1 R1 x1) (nearest r2 R2 x2) coef ∧
    Rounded.eval2 fl s1 s2 x1 x2 coef = Rounded.noBc2 fl b1 b2 none none (nearest r1 R1 x1) (nearest r2 R2 x2) coef := by
  have key : ∀ x1 x2, Rounded.eval2 fl s1 s2 x1 x2 coef =
      Rounded.noBc2 fl b1 b2 none none (nearest r1 R1 x1) (nearest r2 R2 x2) coef := by
    intro x1 x2
    rw [hs1, hs2, Rounded.eval2, wrap_false, Res.ok_bind, wrap_false, Res.ok_bind]
    rcases needs_clamp (lo := constantRule2 fl true b1 b2 false r1 r2 R2) (up := constantRule2 fl true b1 b2 false R1 r2 R2)
      hr1 hR1 h1 x1 with ⟨e, e', -⟩ | ⟨e, e'⟩ | ⟨e, e'⟩
    · rw [e, e', Res.ok_bind]
      dsimp only
      rcases needs_clamp (lo := constantRule2 fl false b1 b2 false r2 r1 R1) (up := constantRule2 fl false b1 b2 false R2 r1 R1)
        hr2 hR2 h2 x2 with ⟨f, f', -⟩ | ⟨f, f'⟩ | ⟨f, f'⟩
      · rw [f, f', Res.ok_bind]
      · rw [f, f', Res.ok_bind]
        simp only [constantRule2, Bool.false_eq_true, if_false, clampR_eq h1, Res.ok_bind, e']
        rfl
      · rw [f, f', Res.ok_bind]
        simp only [constantRule2, Bool.false_eq_true, if_false, clampR_eq h1, Res.ok_bind, e']
        rfl
    · rw [e, e', Res.ok_bind]
      simp only [constantRule2, Bool.false_eq_true, if_false, if_true, clampR_eq h2, Res.ok_bind]
      rfl
    · rw [e, e', Res.ok_bind]
      simp only [constantRule2, Bool.false_eq_true, if_false, if_true, clampR_eq h2, Res.ok_bind]
      rfl
  obtain ⟨n1, n2⟩ := nearest_mem h1 x1
  obtain ⟨m1, m2⟩ := nearest_mem h2 x2
  exact ⟨by rw [key, key, nearest_self n1 n2, nearest_self m1 m2], key x1 x2⟩

/-- In two dimensions, one of which is periodic: constant rules made for the two ends of the other one.  The result is the very
number that is the result at the closest coordinate of the domain of the other one and the same coordinate of the periodic one. -/
theorem C72_constant_2d_periodic {b1 b2 : Basis} {r R : Rat} :
    (b1.rmin fl = .ok r → b1.rmax fl = .ok R → r < R → ∀ (lo up : Eval.Rule Rat) (x1 x2 : Rat) (coef : Coefs Rat) (s1 s2 : Side),
      s1 = ⟨b1, false, constantRule2 fl true b1 b2 true r 0 0, constantRule2 fl true b1 b2 true R 0 0⟩ → s2 = ⟨b2, true, lo, up⟩ →
      Rounded.eval2 fl s1 s2 x1 x2 coef = Rounded.eval2 fl s1 s2 (nearest r R x1) x2 coef) ∧
    (b2.rmin fl = .ok r → b2.rmax fl = .ok R → r < R → ∀ (lo up : Eval.Rule Rat) (x1 x2 : Rat) (coef : Coefs Rat) (s1 s2 : Side),
      s1 = ⟨b1, true, lo, up⟩ → s2 = ⟨b2, false, constantRule2 fl false b1 b2 true r 0 0, constantRule2 fl false b1 b2 true R 0 0⟩ →
      Rounded.eval2 fl s1 s2 x1 x2 coef = Rounded.eval2 fl s1 s2 x1 (nearest r R x2) coef) := by
  refine ⟨fun hr hR hlt lo up x1 x2 coef s1 s2 hs1 hs2 => ?_, fun hr hR hlt lo up x1 x2 coef s1 s2 hs1 hs2 => ?_⟩
  · have key : ∀ x1, Rounded.eval2 fl s1 s2 x1 x2 coef =
        (do
          let x2 ← s2.wrap fl x2
          Rounded.noBc2 fl b1 b2 none none (nearest r R x1) x2 coef) := by
      intro x1
      rw [Rounded.eval2, hs1, wrap_false, Res.ok_bind]
      congr 1
      funext z
      rcases needs_clamp (lo := constantRule2 fl true b1 b2 true r 0 0) (up := constantRule2 fl true b1 b2 true R 0 0)
        hr hR hlt x1 with ⟨e, e', -⟩ | ⟨e, e'⟩ | ⟨e, e'⟩ <;> rw [e, e', Res.ok_bind] <;> dsimp only
      · rw [hs2, Side.needs, if_pos rfl, Res.ok_bind]
      · simp only [constantRule2, if_true, Res.ok_bind]
        rfl
      · simp only [constantRule2, if_true, Res.ok_bind]
        rfl
    obtain ⟨n1, n2⟩ := nearest_mem hlt x1
    rw [key, key, nearest_self n1 n2]
  · have key : ∀ x2, Rounded.eval2 fl s1 s2 x1 x2 coef =
        (do
          let x1 ← s1.wrap fl x1
          Rounded.noBc2 fl b1 b2 none none x1 (nearest r R x2) coef) := by
      intro x2
      rw [Rounded.eval2, hs2, wrap_false]
      congr 1
      funext z
      rw [Res.ok_bind, hs1, Side.needs, if_pos rfl, Res.ok_bind]
      dsimp only
      rcases needs_clamp (lo := constantRule2 fl false b1 b2 true r 0 0) (up := constantRule2 fl false b1 b2 true R 0 0)
        hr hR hlt x2 with ⟨e, e', -⟩ | ⟨e, e'⟩ | ⟨e, e'⟩ <;> rw [e, e', Res.ok_bind] <;> dsimp only
      · simp only [constantRule2, if_true, Bool.false_eq_true, if_false, Res.ok_bind]
        rfl
      · simp only [constantRule2, if_true, Bool.false_eq_true, if_false, Res.ok_bind]
        rfl
    obtain ⟨n1, n2⟩ := nearest_mem hlt x2
    rw [key, key, nearest_self n1 n2]

/-! ## Non-trivial cases -/

/-- Ten uniform cells of `[0, 3.1]`, for cubic B-splines. -/
def exKnots : Knots := mkKnots round53 0 (round53 (31 / 10)) 10 3

/-- Seven periods away from the domain of the first dimension, that is periodic: outside of the domain of the second
dimension, its rules are applied to a reduced coordinate of the first. -/
example (coef : Coefs Rat) (rule : Eval.Rule Rat) : ∃ z : Rat,
    (∃ m : Int, |z + m * (exKnots.rmax round53 - exKnots.rmin round53) - 22| ≤ 1 / 2 ^ 45) ∧
    Rounded.eval2 round53 ⟨.uniform exKnots, true, Eval.nullRule, Eval.nullRule⟩ ⟨.uniform exKnots, false, Eval.nullRule, rule⟩
      22 (-1) coef = .ok 0 ∧
    Rounded.eval2 round53 ⟨.uniform exKnots, true, Eval.nullRule, Eval.nullRule⟩ ⟨.uniform exKnots, false, Eval.nullRule, rule⟩
      22 4 coef = rule [z, 4] coef := by
  have hlt : exKnots.rmin round53 < exKnots.rmax round53 := by decide +kernel
  have h1 : SDim.Is round53 ⟨⟨.uniform exKnots, true, Eval.nullRule, Eval.nullRule⟩, 22, exKnots.rmin round53, exKnots.rmax round53⟩ :=
    ⟨rfl, rfl, hlt, fun _ => ⟨by decide +kernel, by decide +kernel⟩⟩
  have h2 : ∀ x, SDim.Is round53 ⟨⟨.uniform exKnots, false, Eval.nullRule, rule⟩, x, exKnots.rmin round53, exKnots.rmax round53⟩ :=
    fun x => ⟨rfl, rfl, hlt, fun h => by simp at h⟩
  obtain ⟨z1, z2, k1, k2, -, -, -, -, k3⟩ := C72_dispatch_2d round53_all h1 (h2 4) coef
  obtain ⟨w1, w2, -, -, -, -, -, k4, -⟩ := C72_dispatch_2d round53_all h1 (h2 (-1)) coef
  obtain ⟨-, ⟨m, hm⟩, -⟩ := k1.2 rfl
  obtain rfl := k2.1 rfl
  refine ⟨z1, ⟨m, hm.trans (by decide +kernel)⟩, k4 (Or.inl rfl) rfl (show (-1 : Rat) < exKnots.rmin round53 by decide +kernel),
    k3 (Or.inl rfl) rfl (show exKnots.rmax round53 < 4 by decide +kernel)⟩

/-- Beyond a corner with constant rules. -/
example (coef : Coefs Rat) {b : Basis} (hb : b = .uniform exKnots) {r R : Rat} (hr : r = exKnots.rmin round53)
    (hR : R = exKnots.rmax round53) : Rounded.eval2 round53
    ⟨b, false, constantRule2 round53 true b b false r r R, constantRule2 round53 true b b false R r R⟩
    ⟨b, false, constantRule2 round53 false b b false r r R, constantRule2 round53 false b b false R r R⟩ (-2) 5 coef =
    Rounded.noBc2 round53 b b none none r R coef := by
  subst hb hr hR
  have hlt : exKnots.rmin round53 < exKnots.rmax round53 := by decide +kernel
  have h := (C72_constant_2d (fl := round53) (b1 := .uniform exKnots) (b2 := .uniform exKnots) rfl rfl hlt rfl rfl hlt rfl rfl
    (-2) 5 coef).2
  rw [show nearest (exKnots.rmin round53) (exKnots.rmax round53) (-2) = exKnots.rmin round53 by decide +kernel,
    show nearest (exKnots.rmin round53) (exKnots.rmax round53) 5 = exKnots.rmax round53 by decide +kernel] at h
  exact h

/-- The accuracy in a periodic dimension and in one that is not. -/
example (c : Nat → Nat → Rat) (hc : ∀ i j, |c i j| ≤ 1) : ∃ (y : Rat) (w1 w2 : Nat → Rat),
    Rounded.eval2 round53 ⟨.uniform exKnots, true, Eval.nullRule, Eval.nullRule⟩
      ⟨.uniform exKnots, false, Eval.nullRule, Eval.nullRule⟩ (round53 (3 / 2)) (round53 (7 / 3)) (fun l => match l with
      | [i, j] => if i.toNat < 13 ∧ j.toNat < 13 then .ok (c i.toNat j.toNat) else .ub
      | _ => .ub) = .ok y ∧
    |y - ∑ i ∈ range 13, ∑ j ∈ range 13, c i j * w1 i * w2 j| ≤ 1 / 2 ^ 38 := by
  have hlt : exKnots.rmin round53 < exKnots.rmax round53 := by decide +kernel
  have h1 : SDim.Is round53 ⟨⟨.uniform exKnots, true, Eval.nullRule, Eval.nullRule⟩, round53 (3 / 2), exKnots.rmin round53,
      exKnots.rmax round53⟩ := ⟨rfl, rfl, hlt, fun _ => ⟨by decide +kernel, by decide +kernel⟩⟩
  have h2 : SDim.Is round53 ⟨⟨.uniform exKnots, false, Eval.nullRule, Eval.nullRule⟩, round53 (7 / 3), exKnots.rmin round53,
      exKnots.rmax round53⟩ := ⟨rfl, rfl, hlt, fun h => by simp at h⟩
  have g1 := DimIs.uniform (fl := round53) (a := 0) (b := round53 (31 / 10)) (n := 10) (p := 3) (x := round53 (3 / 2))
    (by decide +kernel) (by norm_num) (by norm_num) (by norm_num) (by norm_num) (by norm_num; decide +kernel) rfl
    (by decide +kernel) (by decide +kernel) (by decide +kernel)
  have g2 := DimIs.uniform (fl := round53) (a := 0) (b := round53 (31 / 10)) (n := 10) (p := 3) (x := round53 (7 / 3))
    (by decide +kernel) (by norm_num) (by norm_num) (by norm_num) (by norm_num) (by norm_num; decide +kernel) rfl
    (by decide +kernel) (by decide +kernel) (by decide +kernel)
  obtain ⟨z1, z2, k1, k2, k⟩ := C72_2d_partial round53_all h1 h2 (Or.inl rfl) (Or.inr ⟨by decide +kernel, by decide +kernel⟩)
  have e1 : z1 = round53 (3 / 2) := (k1.2 rfl).1 (by decide +kernel) (by decide +kernel)
  have e2 : z2 = round53 (7 / 3) := k2.1 rfl
  subst e1 e2
  obtain ⟨y, e, h⟩ := k ⟨_, _, _, _, _, _⟩ ⟨_, _, _, _, _, _⟩ rfl rfl rfl rfl g1 g2 (by norm_num)
    (fun l => match l with
      | [i, j] => if i.toNat < 13 ∧ j.toNat < 13 then .ok (c i.toNat j.toNat) else .ub
      | _ => .ub) c 1
    (fun i j hi hj => by
      have e1 : (BitVec.ofNat 64 i).toNat = i := by
        rw [BitVec.toNat_ofNat]; dsimp only at hi; omega
      have e2 : (BitVec.ofNat 64 j).toNat = j := by
        rw [BitVec.toNat_ofNat]; dsimp only at hj; omega
      dsimp only
      rw [e1, e2, if_pos ⟨by simpa using hi, by simpa using hj⟩]) (by norm_num) (fun i j _ _ => hc i j)
  exact ⟨y, _, _, e, h.trans (by rw [tensorError]; norm_num)⟩

end DDC.Props
