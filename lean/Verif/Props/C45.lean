import Verif.Lemmas.Evaluator
import Verif.Props.C41b

/-!
# C45: tensor-product evaluation

The evaluators in one, two, three and any number of dimensions compute the expansion of the spline on all the
products of B-splines, with the derivatives in any subset of the dimensions; the evaluator in `d` dimensions is the
specialised one for `d = 1, 2, 3`.
-/

set_option linter.unusedSectionVars false

namespace DDC.Props

open One Dom Spec Eval

variable {K : Type} [Field K] [LinearOrder K] [IsStrictOrderedRing K] [FloorRing K]

/-- A point inside the domain in one dimension: `s` gives the number of B-splines and their values (or the values of
their derivatives) at the point. -/
def InDomain (d : Dim K) (s : Nat × (Nat → K)) : Prop :=
  ∃ per p n t o, d.1.Is per p n t ∧ d.2.1 = Option.map (BitVec.ofNat 64) o ∧ GoodOrder d.1 p o ∧ t p ≤ d.2.2 ∧
    d.2.2 ≤ t (p + n) ∧ s.1 = n + p ∧ Weights t p n o d.2.2 s.2

theorem InDomain.jmin {d : Dim K} {s : Nat × (Nat → K)} (h : InDomain d s) :
    ∃ o : One1 K, o.Ok ∧ jminVals d.1 d.2.1 d.2.2 = .ok (o.v, BitVec.ofNat 64 o.m) ∧ o.size = s.1 ∧ o.w = s.2 ∧
      o.p = d.1.degree := by
  obtain ⟨per, p, n, t, o, h1, h2, h3, h4, h5, h6, h7⟩ := h
  obtain ⟨m, v, e, hv⟩ := jminVals_ok h1 h3 h4 h5 h7
  exact ⟨⟨n + p, p, s.2, m, v⟩, hv, by rw [h2, e], h6.symm, rfl, h1.degree.symm⟩

/-- In any number of dimensions, the value is the sum over all the products of B-splines. -/
theorem C45_nd {dims : List (Dim K)} {s : List (Nat × (Nat → K))} (hne : dims ≠ []) (h : List.Forall₂ InDomain dims s)
    {coef : Coefs K} {c : List Nat → K} (hc : Holds (s.map (·.1)) coef c) :
    noBcN dims coef = .ok (tensor s c) := by
  have key : ∃ os : List (One1 K), (∀ o ∈ os, o.Ok) ∧
      (dims.mapM fun d => jminVals d.1 d.2.1 d.2.2) = .ok (os.map fun o => (o.v, BitVec.ofNat 64 o.m)) ∧
      s = os.map (fun o => (o.size, o.w)) ∧ (dims.map fun d => d.1.degree + 1) = os.map fun o => o.p + 1 := by
    clear hc hne
    induction h with
    | nil => exact ⟨[], by simp, rfl, rfl, rfl⟩
    | cons hd _ ih =>
      obtain ⟨os, h1, h2, h3, h4⟩ := ih
      obtain ⟨o, g1, g2, g3, g4, g5⟩ := hd.jmin
      refine ⟨o :: os, by simpa using ⟨g1, h1⟩, ?_, ?_, ?_⟩
      · rw [List.mapM_cons, g2, Res.ok_bind, h2, Res.ok_bind]
        rfl
      · rw [List.map_cons, ← h3, g3, g4]
      · rw [List.map_cons, List.map_cons, h4, g5]
  obtain ⟨os, h1, h2, h3, h4⟩ := key
  have hos : os ≠ [] := by
    rintro rfl
    simp at h4
    exact hne h4
  subst h3
  rw [noBcN, h2, Res.ok_bind, h4, forEachN_sum (g := fun l => c (List.zipWith (fun (d : One1 K) i => d.m + i) os l) *
      (List.zipWith (fun (d : One1 K) i => d.w (d.m + i)) os l).prod), zero_add]
  · simp only [List.nil_append]
    rw [nsum_tensor os h1]
  · intro l y hl
    rw [List.nil_append, List.map_map, List.map_map]
    have e1 : coef (List.zipWith (fun j i => j + BitVec.ofNat 64 i)
        (os.map ((·.2) ∘ fun o => (o.v, BitVec.ofNat 64 o.m))) l)
        = .ok (c (List.zipWith (fun (d : One1 K) i => d.m + i) os l)) := by
      rw [← hc (List.zipWith (fun (d : One1 K) i => d.m + i) os l)]
      · congr 1
        clear hc h2 h4 hne h
        induction os generalizing l with
        | nil => rfl
        | cons o os ih =>
          cases l with
          | nil => rfl
          | cons i l =>
            have hl := (List.forall₂_cons.1 hl).2
            simp only [List.map_cons, List.zipWith_cons_cons, Function.comp_apply, BitVec.ofNat_add]
            congr 1
            by_cases hos : os = []
            · subst hos; simp
            · exact ih (fun x hx => h1 x (List.mem_cons_of_mem _ hx)) hos l hl
      · clear hc h2 h4 hne h hos
        induction os generalizing l with
        | nil => cases hl; exact .nil
        | cons o os ih =>
          cases l with
          | nil => cases hl
          | cons i l =>
            obtain ⟨hi, hl⟩ := List.forall₂_cons.1 hl
            have := (h1 o List.mem_cons_self).inside
            dsimp only at hi
            exact .cons (by dsimp only; omega) (ih (fun x hx => h1 x (List.mem_cons_of_mem _ hx)) l hl)
    have e2 := foldVals_ok os hos h1 l hl
    rw [e1, Res.ok_bind]
    simp only [Function.comp_def]
    rw [e2, Res.ok_bind]

/-- With one dimension, the evaluator in any number of dimensions is the evaluator in one dimension, on all inputs. -/
theorem C45_one (d : Dim K) (coef : Coefs K) : noBcN [d] coef = noBc1 d.1 d.2.1 d.2.2 coef := by
  simp only [noBcN, noBc1, List.mapM_cons, List.mapM_nil, Res.pure_eq, Res.ok_bind, bind_assoc]
  refine bind_congr fun a => ?_
  simp only [List.map_cons, List.map_nil, forEachN, List.nil_append, List.zipWith_cons_cons, List.zipWith_nil_left, foldVals, sum1]

/-- With two dimensions, it is the evaluator in two dimensions, on all inputs. -/
theorem C45_two (d1 d2 : Dim K) (coef : Coefs K) :
    noBcN [d1, d2] coef = noBc2 d1.1 d2.1 d1.2.1 d2.2.1 d1.2.2 d2.2.2 coef := by
  simp only [noBcN, noBc2, List.mapM_cons, List.mapM_nil, Res.pure_eq, Res.ok_bind, bind_assoc]
  refine bind_congr fun a => bind_congr fun b => ?_
  simp only [List.map_cons, List.map_nil, forEachN, List.nil_append, List.zipWith_cons_cons, List.zipWith_nil_left, foldVals, sum2,
    List.cons_append, Res.ok_bind, bind_assoc, mul_assoc]

/-- With three dimensions, it is the evaluator in three dimensions, on all inputs. -/
theorem C45_three (d1 d2 d3 : Dim K) (coef : Coefs K) :
    noBcN [d1, d2, d3] coef =
      noBc3 d1.1 d2.1 d3.1 d1.2.1 d2.2.1 d3.2.1 d1.2.2 d2.2.2 d3.2.2 coef := by
  simp only [noBcN, noBc3, List.mapM_cons, List.mapM_nil, Res.pure_eq, Res.ok_bind, bind_assoc]
  refine bind_congr fun a => bind_congr fun b => bind_congr fun c => ?_
  simp only [List.map_cons, List.map_nil, forEachN, List.nil_append, List.zipWith_cons_cons, List.zipWith_nil_left, foldVals,
    List.cons_append, Res.ok_bind, bind_assoc, mul_assoc]

/-- The value in one dimension. -/
theorem C45_1d {d : Dim K} {s : Nat × (Nat → K)} (h : InDomain d s) {coef : Coefs K} {c : Nat → K}
    (hc : ∀ J, J < s.1 → coef [BitVec.ofNat 64 J] = .ok (c J)) :
    noBc1 d.1 d.2.1 d.2.2 coef = .ok (∑ J ∈ Finset.range s.1, c J * s.2 J) := by
  rw [← C45_one, C45_nd (by simp) (.cons h .nil) (c := fun l => c l.headI)]
  · simp only [tensor, List.headI, mul_comm]
  · rintro idx hi
    cases hi with
    | cons h1 h2 => cases h2; exact hc _ h1

/-- The value in two dimensions. -/
theorem C45_2d {d1 d2 : Dim K} {s1 s2 : Nat × (Nat → K)} (h1 : InDomain d1 s1) (h2 : InDomain d2 s2) {coef : Coefs K}
    {c : Nat → Nat → K}
    (hc : ∀ J1 J2, J1 < s1.1 → J2 < s2.1 → coef [BitVec.ofNat 64 J1, BitVec.ofNat 64 J2] = .ok (c J1 J2)) :
    noBc2 d1.1 d2.1 d1.2.1 d2.2.1 d1.2.2 d2.2.2 coef =
      .ok (∑ J1 ∈ Finset.range s1.1, ∑ J2 ∈ Finset.range s2.1, c J1 J2 * s1.2 J1 * s2.2 J2) := by
  rw [← C45_two, C45_nd (by simp) (.cons h1 (.cons h2 .nil)) (c := fun l => c l.headI l.tail.headI)]
  · simp only [tensor, List.headI, List.tail, Finset.mul_sum]
    congr 1
    exact Finset.sum_congr rfl fun _ _ => Finset.sum_congr rfl fun _ _ => by ring
  · rintro idx hi
    obtain _ | ⟨g1, hi⟩ := hi
    obtain _ | ⟨g2, hi⟩ := hi
    cases hi
    exact hc _ _ g1 g2

/-- The value in three dimensions. -/
theorem C45_3d {d1 d2 d3 : Dim K} {s1 s2 s3 : Nat × (Nat → K)} (h1 : InDomain d1 s1) (h2 : InDomain d2 s2)
    (h3 : InDomain d3 s3) {coef : Coefs K} {c : Nat → Nat → Nat → K}
    (hc : ∀ J1 J2 J3, J1 < s1.1 → J2 < s2.1 → J3 < s3.1 →
      coef [BitVec.ofNat 64 J1, BitVec.ofNat 64 J2, BitVec.ofNat 64 J3] = .ok (c J1 J2 J3)) :
    noBc3 d1.1 d2.1 d3.1 d1.2.1 d2.2.1 d3.2.1 d1.2.2 d2.2.2 d3.2.2 coef =
      .ok (∑ J1 ∈ Finset.range s1.1, ∑ J2 ∈ Finset.range s2.1, ∑ J3 ∈ Finset.range s3.1,
        c J1 J2 J3 * s1.2 J1 * s2.2 J2 * s3.2 J3) := by
  rw [← C45_three, C45_nd (by simp) (.cons h1 (.cons h2 (.cons h3 .nil)))
    (c := fun l => c l.headI l.tail.headI l.tail.tail.headI)]
  · simp only [tensor, List.headI, List.tail, Finset.mul_sum]
    congr 1
    exact Finset.sum_congr rfl fun _ _ => Finset.sum_congr rfl fun _ _ => Finset.sum_congr rfl fun _ _ => by ring
  · rintro idx hi
    obtain _ | ⟨g1, hi⟩ := hi
    obtain _ | ⟨g2, hi⟩ := hi
    obtain _ | ⟨g3, hi⟩ := hi
    cases hi
    exact hc _ _ _ g1 g2 g3

/-- An order of derivation that is zero or larger than the degree is refused, in any position. -/
theorem C45_bad_order {bs : BSpl K} {o : U64} (h : o.toNat = 0 ∨ bs.degree < o.toNat) (x : K) :
    jminVals bs (some o) x = .abort := by
  rw [jminVals, decide_eq_false (by omega)]
  rfl

/-- A case that meets the hypotheses: the value in the first direction and the derivative of order 1 in the second. -/
example (c : Nat → Nat → Rat) : ∃ u1 u2 s1 s2, UBS.mk' 2 true (0 : Rat) 3 3 = .ok u1 ∧ UBS.mk' 3 false (0 : Rat) 4 4 = .ok u2 ∧
    InDomain ((.uniform u1 : BSpl Rat), none, 1 / 2) s1 ∧ InDomain ((.uniform u2 : BSpl Rat), some 1, 7 / 3) s2 ∧
    noBc2 (.uniform u1) (.uniform u2) none (some 1) (1 / 2) (7 / 3) (fun l => .ok (c l.headI.toNat l.tail.headI.toNat)) =
      .ok (∑ J1 ∈ Finset.range 5, ∑ J2 ∈ Finset.range 7, c J1 J2 * s1.2 J1 * s2.2 J2) := by
  obtain ⟨u1, e1, h1⟩ := BSpl.is_uniform (p := 2) (by norm_num) true (a := (0 : Rat)) (b := 3) (by norm_num) (n := 3)
    (by norm_num) (by norm_num)
  obtain ⟨u2, e2, h2⟩ := BSpl.is_uniform (p := 3) (by norm_num) false (a := (0 : Rat)) (b := 4) (by norm_num) (n := 4)
    (by norm_num) (by norm_num)
  have i1 : InDomain ((.uniform u1 : BSpl Rat), none, 1 / 2) (5, fun J => bspline (uniformKnot (0 : Rat) 3 3 2)
      (uniformKnot (0 : Rat) 3 3 2 (2 + 3)) 2 J (1 / 2)) :=
    ⟨_, _, _, _, none, h1, rfl, fun k hk => by simp at hk, by dsimp only; decide +kernel, by dsimp only; decide +kernel, rfl, fun J => rfl⟩
  have i2 : InDomain ((.uniform u2 : BSpl Rat), some 1, 7 / 3) (7, fun J => basisDeriv (uniformKnot (0 : Rat) 4 4 3) 3 5 1 J
      (7 / 3)) :=
    ⟨_, _, _, _, some 1, h2, rfl, fun k hk => by
      obtain rfl : 1 = k := by simpa using hk
      exact ⟨by norm_num, by norm_num, Or.inl rfl⟩, by dsimp only; decide +kernel, by dsimp only; decide +kernel, rfl, 5, by dsimp only; decide +kernel,
      fun J => rfl⟩
  refine ⟨u1, u2, _, _, e1, e2, i1, i2, ?_⟩
  exact C45_2d i1 i2 (c := c) fun J1 J2 g1 g2 => by
    simp only [List.headI, List.tail, BitVec.toNat_ofNat]
    dsimp only at g1 g2
    rw [Nat.mod_eq_of_lt (by omega), Nat.mod_eq_of_lt (by omega)]

end DDC.Props
