import Verif.Model.RoundedTensor
import Verif.Lemmas.Evaluator
import Verif.Props.C60b
import Verif.Props.C61

/-!
# C63 — evaluation of a spline in several dimensions with rounding
-/

namespace DDC.Props

open One Rounded Spec Finset

variable {fl : Rat → Rat}

/-! ## Sums and products with rounding -/

/-- After `k` additions, `y` is close to the sum `s` of terms known with a relative error `τ`, whose absolute values have
sum at most `S`. -/
structure AccNear (k : Nat) (τ y s S : Rat) : Prop where
  near : |y - s| ≤ (17 / 16 * k / 2 ^ 53 + τ) * S
  size : |s| ≤ S

theorem AccNear.step (hfl : RoundsAll fl) {k : Nat} {τ y s S T w W : Rat} (h : AccNear k τ y s S) (hT : |T - w| ≤ τ * W)
    (hw : |w| ≤ W) (hτ : 0 ≤ τ) (hk : 17 / 16 * (k : Rat) / 2 ^ 53 + τ ≤ 1 / 32) :
    AccNear (k + 1) τ (fl (y + T)) (s + w) (S + W) := by
  have hS0 : 0 ≤ S := (abs_nonneg _).trans h.size
  have hW0 : 0 ≤ W := (abs_nonneg _).trans hw
  refine ⟨?_, (abs_add_le _ _).trans (add_le_add h.size hw)⟩
  have e := hfl.error (y + T)
  have hn := h.near
  obtain ⟨κ, hκ⟩ : ∃ κ, κ = 17 / 16 * (k : Rat) / 2 ^ 53 := ⟨_, rfl⟩
  have hκ0 : 0 ≤ κ := by rw [hκ]; positivity
  have e9 : 17 / 16 * ((k + 1 : Nat) : Rat) / 2 ^ 53 = κ + 17 / 16 / 2 ^ 53 := by rw [hκ]; push_cast; ring
  rw [e9]
  rw [← hκ] at hn hk
  have a1 : (κ + τ) * S ≤ 1 / 32 * S := mul_le_mul_of_nonneg_right hk hS0
  have a2 : τ * W ≤ 1 / 32 * W := mul_le_mul_of_nonneg_right (by linarith) hW0
  have a3 : |y| ≤ S + 1 / 32 * S := by
    have := abs_sub_abs_le_abs_sub y s
    linarith [h.size]
  have a4 : |T| ≤ W + 1 / 32 * W := by
    have := abs_sub_abs_le_abs_sub T w
    linarith
  have a5 : |y + T| / 2 ^ 53 ≤ (S + 1 / 32 * S + (W + 1 / 32 * W)) / 2 ^ 53 := by
    have := (abs_add_le y T).trans (add_le_add a3 a4)
    gcongr
  have a6 : |fl (y + T) - (s + w)| ≤ |fl (y + T) - (y + T)| + (|y - s| + |T - w|) := by
    refine (abs_sub_le _ (y + T) _).trans (add_le_add (le_refl _) ?_)
    rw [show y + T - (s + w) = (y - s) + (T - w) by ring]
    exact abs_add_le _ _
  have a7 : 0 ≤ κ * W := mul_nonneg hκ0 hW0
  have a8 : (κ + 17 / 16 / 2 ^ 53 + τ) * (S + W) = (κ + τ) * S + 17 / 16 / 2 ^ 53 * S + κ * W + 17 / 16 / 2 ^ 53 * W + τ * W := by
    ring
  rw [a8]
  norm_num at *
  linarith

/-- The loops over several indices. -/
theorem forEachN_near (hfl : RoundsAll fl) {τ : Rat} (hτ : 0 ≤ τ) {f : List Nat → Rat → Res Rat} {g G : List Nat → Rat}
    (bounds is : List Nat) (k : Nat) {y s S : Rat} (h0 : AccNear k τ y s S)
    (hk : 17 / 16 * ((k + bounds.prod : Nat) : Rat) / 2 ^ 53 + τ ≤ 1 / 32)
    (h : ∀ l y, List.Forall₂ (· < ·) l bounds → ∃ T, f (is ++ l) y = .ok (fl (y + T)) ∧
      |T - g (is ++ l)| ≤ τ * G (is ++ l) ∧ |g (is ++ l)| ≤ G (is ++ l)) :
    ∃ y', Eval.forEachN f bounds is y = .ok y' ∧
      AccNear (k + bounds.prod) τ y' (s + nsum bounds fun l => g (is ++ l)) (S + nsum bounds fun l => G (is ++ l)) := by
  induction bounds generalizing is k y s S with
  | nil =>
    obtain ⟨T, e, h1, h2⟩ := h [] y .nil
    rw [List.append_nil] at e h1 h2
    refine ⟨_, by rw [Eval.forEachN, e], ?_⟩
    simp only [nsum, List.append_nil, List.prod_nil]
    refine h0.step hfl h1 h2 hτ (le_trans ?_ hk)
    push_cast
    gcongr
    simp
  | cons b bounds ih =>
    have e : ∀ i l, is ++ [i] ++ l = is ++ i :: l := fun i l => by simp
    obtain ⟨y', e1, h1⟩ := forLoop_inv (f := fun i s => Eval.forEachN f bounds (is ++ [i]) s)
      (fun i y => AccNear (k + i * bounds.prod) τ y (s + ∑ r ∈ range i, nsum bounds fun l => g (is ++ r :: l))
        (S + ∑ r ∈ range i, nsum bounds fun l => G (is ++ r :: l))) b 0 y (by simpa using h0)
      (by
        intro i y _ hi h1
        rw [Nat.zero_add] at hi
        obtain ⟨y', e1, h2⟩ := ih (is ++ [i]) (k + i * bounds.prod) h1 (le_trans (by
            have : k + i * bounds.prod + bounds.prod ≤ k + (b :: bounds).prod := by
              rw [List.prod_cons, Nat.add_assoc, ← Nat.succ_mul]
              exact Nat.add_le_add_left (Nat.mul_le_mul_right _ hi) _
            gcongr) hk)
          (fun l y hl => by rw [e]; exact h _ _ (.cons hi hl))
        refine ⟨y', e1, ?_⟩
        simp only [e] at h2
        rw [sum_range_succ, sum_range_succ, ← add_assoc, ← add_assoc, Nat.succ_mul, ← Nat.add_assoc]
        exact h2)
    refine ⟨y', e1, ?_⟩
    rw [Nat.zero_add] at h1
    rw [List.prod_cons]
    exact h1

/-- One more product. -/
theorem mul_near (hfl : RoundsAll fl) {e a a' : Rat} (h : |a' - a| ≤ e * |a|) (he : e ≤ 1 / 16) (x : Rat) :
    |fl (x * a') - x * a| ≤ (e + 17 / 16 / 2 ^ 53) * |x * a| := by
  have k1 := hfl.error (x * a')
  have k2 : |x * a' - x * a| ≤ e * |x * a| := by
    rw [← mul_sub, abs_mul, abs_mul, mul_left_comm]
    exact mul_le_mul_of_nonneg_left h (abs_nonneg _)
  have k3 := abs_sub_abs_le_abs_sub (x * a') (x * a)
  have k4 : e * |x * a| ≤ 1 / 16 * |x * a| := mul_le_mul_of_nonneg_right he (abs_nonneg _)
  have k5 : |x * a'| / 2 ^ 53 ≤ (|x * a| + 1 / 16 * |x * a|) / 2 ^ 53 := by
    have : |x * a'| ≤ |x * a| + 1 / 16 * |x * a| := by linarith
    gcongr
  have k6 := abs_sub_le (fl (x * a')) (x * a') (x * a)
  rw [add_mul]
  norm_num at *
  linarith

theorem mul_near' (hfl : RoundsAll fl) {e a a' : Rat} (h : |a' - a| ≤ e * |a|) (he : e ≤ 1 / 16) (x : Rat) :
    |fl (a' * x) - a * x| ≤ (e + 17 / 16 / 2 ^ 53) * |a * x| := by
  have := mul_near hfl h he x
  rwa [mul_comm x, mul_comm x] at this

/-- The product of the values. -/
theorem foldVals_near (hfl : RoundsAll fl) (ds : List (One1 Rat)) (hne : ds ≠ []) (hs : ds.length ≤ 2 ^ 40)
    (h : ∀ d ∈ ds, d.Ok) (l : List Nat) (hl : List.Forall₂ (· < ·) l (ds.map fun d => d.p + 1)) :
    ∃ w, Rounded.foldVals fl (ds.map (·.v)) l = .ok w ∧
      |w - (List.zipWith (fun (d : One1 Rat) i => d.w (d.m + i)) ds l).prod| ≤
        17 / 16 * ((ds.length : Rat) - 1) / 2 ^ 53 * |(List.zipWith (fun (d : One1 Rat) i => d.w (d.m + i)) ds l).prod| := by
  induction ds generalizing l with
  | nil => exact absurd rfl hne
  | cons d ds ih =>
    cases l with
    | nil => cases hl
    | cons i l =>
      obtain ⟨hi, hl⟩ := List.forall₂_cons.1 hl
      have hd : d.Ok := h d List.mem_cons_self
      dsimp only at hi
      have e : d.v.rd i = .ok (d.w (d.m + i)) := Arr.rd_ok (by rw [hd.size]; omega) (hd.value i (by omega))
      cases ds with
      | nil =>
        cases hl
        exact ⟨_, e, by simp⟩
      | cons d' ds =>
        cases l with
        | nil => cases hl
        | cons i' l =>
          rw [List.length_cons] at hs
          obtain ⟨w, e1, h1⟩ := ih (by simp) (by omega) (fun x hx => h x (List.mem_cons_of_mem _ hx)) (i' :: l) hl
          refine ⟨fl (d.w (d.m + i) * w), ?_, ?_⟩
          · simp only [List.map_cons, Rounded.foldVals] at e1 ⊢
            rw [e, Res.ok_bind, e1, Res.ok_bind]
          · rw [List.zipWith_cons_cons, List.prod_cons]
            refine (mul_near hfl h1 ?_ _).trans (le_of_eq ?_)
            · have : ((d' :: ds).length : Rat) ≤ 2 ^ 40 := by exact_mod_cast (by omega : (d' :: ds).length ≤ 2 ^ 40)
              rw [div_le_iff₀ (by norm_num)]
              norm_num at *
              linarith
            · congr 1
              simp only [List.length_cons]
              push_cast
              ring

/-! ## Sums over all the B-splines -/

/-- The product of the sums. -/
theorem tensor_const (s : List (Nat × (Nat → Rat))) (M : Rat) :
    tensor s (fun _ => M) = M * (s.map fun d => ∑ J ∈ range d.1, d.2 J).prod := by
  induction s with
  | nil => simp [tensor]
  | cons d s ih =>
    obtain ⟨n, w⟩ := d
    simp only [tensor, List.map_cons, List.prod_cons, ih]
    rw [← sum_mul]
    ring

/-- One dimension, as computed (`f`), as it should be (`g`), whose absolute values have sum at most `W`. -/
structure Close1 where
  size : Nat
  f : Nat → Rat
  g : Nat → Rat
  ε : Rat
  W : Rat

structure Close1.Ok (Φ : Rat) (d : Close1) : Prop where
  sum : ∑ i ∈ range d.size, |d.f i| ≤ Φ * d.W
  unit : ∑ i ∈ range d.size, |d.g i| ≤ d.W
  near : ∑ i ∈ range d.size, |d.f i - d.g i| ≤ d.ε * d.W

theorem Close1.Ok.nonneg {Φ : Rat} {d : Close1} (h : d.Ok Φ) : 0 ≤ d.W :=
  (sum_nonneg fun _ _ => abs_nonneg _).trans h.unit

theorem tensor_le (ds : List Close1) {Φ : Rat} (h : ∀ d ∈ ds, d.Ok Φ) {c : List Nat → Rat} {M : Rat} (hM : 0 ≤ M)
    (hc : ∀ l, List.Forall₂ (· < ·) l (ds.map (·.size)) → |c l| ≤ M) :
    |tensor (ds.map fun d => (d.size, d.g)) c| ≤ (ds.map (·.W)).prod * M := by
  induction ds generalizing c with
  | nil => simpa [tensor] using hc [] .nil
  | cons d ds ih =>
    simp only [List.map_cons, tensor, List.prod_cons]
    refine (abs_sum_le_sum_abs _ _).trans ?_
    have hP : 0 ≤ (ds.map (·.W)).prod := List.prod_nonneg fun w hw => by
      obtain ⟨x, hx, rfl⟩ := List.mem_map.1 hw
      exact (h x (List.mem_cons_of_mem _ hx)).nonneg
    have : ∀ J ∈ range d.size, |d.g J * tensor (ds.map fun d => (d.size, d.g)) fun l => c (J :: l)| ≤
        |d.g J| * ((ds.map (·.W)).prod * M) := by
      intro J hJ
      rw [abs_mul]
      exact mul_le_mul_of_nonneg_left (ih (fun x hx => h x (List.mem_cons_of_mem _ hx))
        fun l hl => hc _ (.cons (mem_range.1 hJ) hl)) (abs_nonneg _)
    refine (sum_le_sum this).trans ?_
    rw [← sum_mul, mul_assoc]
    exact mul_le_mul_of_nonneg_right (h d List.mem_cons_self).unit (mul_nonneg hP hM)

theorem tensor_near (ds : List Close1) {Φ : Rat} (hΦ : 1 ≤ Φ) (hε0 : ∀ d ∈ ds, 0 ≤ d.ε) (h : ∀ d ∈ ds, d.Ok Φ) {c : List Nat → Rat} {M : Rat}
    (hM : 0 ≤ M) (hc : ∀ l, List.Forall₂ (· < ·) l (ds.map (·.size)) → |c l| ≤ M) :
    |tensor (ds.map fun d => (d.size, d.f)) c - tensor (ds.map fun d => (d.size, d.g)) c| ≤
      Φ ^ ds.length * (ds.map (·.ε)).sum * ((ds.map (·.W)).prod * M) := by
  induction ds generalizing c with
  | nil => simp [tensor]
  | cons d ds ih =>
    have hd := h d List.mem_cons_self
    have hr : ∀ x ∈ ds, x.Ok Φ := fun x hx => h x (List.mem_cons_of_mem _ hx)
    have hε : 0 ≤ (ds.map (·.ε)).sum := List.sum_nonneg fun e he => by
      obtain ⟨x, hx, rfl⟩ := List.mem_map.1 he
      exact hε0 x (List.mem_cons_of_mem _ hx)
    have hdε : 0 ≤ d.ε := hε0 d List.mem_cons_self
    have hP : 1 ≤ Φ ^ ds.length := one_le_pow₀ hΦ
    simp only [List.map_cons, tensor, List.sum_cons, List.length_cons, List.prod_cons]
    rw [← sum_sub_distrib]
    have hW : 0 ≤ (ds.map (·.W)).prod := List.prod_nonneg fun w hw => by
      obtain ⟨x, hx, rfl⟩ := List.mem_map.1 hw
      exact (hr x hx).nonneg
    obtain ⟨V, hV⟩ : ∃ V, V = (ds.map (·.W)).prod * M := ⟨_, rfl⟩
    have hV0 : 0 ≤ V := by rw [hV]; exact mul_nonneg hW hM
    obtain ⟨E, hE⟩ : ∃ E, E = Φ ^ ds.length * (ds.map (·.ε)).sum * V := ⟨_, rfl⟩
    have hE0 : 0 ≤ E := by rw [hE]; positivity
    have key : ∀ J ∈ range d.size, |d.f J * tensor (ds.map fun d => (d.size, d.f)) (fun l => c (J :: l)) -
        d.g J * tensor (ds.map fun d => (d.size, d.g)) fun l => c (J :: l)| ≤ |d.f J| * E + |d.f J - d.g J| * V := by
      intro J hJ
      have k1 := ih (fun x hx => hε0 x (List.mem_cons_of_mem _ hx)) hr (c := fun l => c (J :: l)) (fun l hl => hc _ (.cons (mem_range.1 hJ) hl))
      have k2 := tensor_le ds hr hM (c := fun l => c (J :: l)) (fun l hl => hc _ (.cons (mem_range.1 hJ) hl))
      rw [← hV] at k1 k2
      rw [← hE] at k1
      obtain ⟨A, hA⟩ : ∃ A, A = tensor (ds.map fun d => (d.size, d.f)) fun l => c (J :: l) := ⟨_, rfl⟩
      obtain ⟨B, hB⟩ : ∃ B, B = tensor (ds.map fun d => (d.size, d.g)) fun l => c (J :: l) := ⟨_, rfl⟩
      rw [← hA, ← hB] at k1
      rw [← hB] at k2
      rw [← hA, ← hB, show d.f J * A - d.g J * B = d.f J * (A - B) + (d.f J - d.g J) * B by ring]
      refine (abs_add_le _ _).trans (add_le_add ?_ ?_)
      · rw [abs_mul]
        exact mul_le_mul_of_nonneg_left k1 (abs_nonneg _)
      · rw [abs_mul]
        exact mul_le_mul_of_nonneg_left k2 (abs_nonneg _)
    refine (abs_sum_le_sum_abs _ _).trans ((sum_le_sum key).trans ?_)
    rw [sum_add_distrib, ← sum_mul, ← sum_mul, mul_assoc d.W, ← hV]
    have hdW := hd.nonneg
    have a1 : (∑ i ∈ range d.size, |d.f i|) * E ≤ Φ * d.W * E := mul_le_mul_of_nonneg_right hd.sum hE0
    have a2 : (∑ i ∈ range d.size, |d.f i - d.g i|) * V ≤ d.ε * d.W * V := mul_le_mul_of_nonneg_right hd.near hV0
    have a3 : d.ε * d.W * V ≤ Φ ^ (ds.length + 1) * (d.ε * d.W * V) :=
      le_mul_of_one_le_left (mul_nonneg (mul_nonneg hdε hdW) hV0) (one_le_pow₀ hΦ)
    have a4 : Φ ^ (ds.length + 1) * (d.ε + (ds.map (·.ε)).sum) * (d.W * V) =
        Φ ^ (ds.length + 1) * (d.ε * d.W * V) + Φ * d.W * E := by
      rw [hE]; ring
    rw [a4]
    linarith

/-! ## One dimension -/

theorem bspline_congr_knots {t t' : Nat → Rat} {b x : Rat} (p i : Nat) (h : ∀ k, i ≤ k → k ≤ i + p + 1 → t k = t' k) :
    Spec.bspline t b p i x = Spec.bspline t' b p i x := by
  induction p generalizing i with
  | zero =>
    simp only [Spec.bspline, Spec.InCell, h i (by omega) (by omega), h (i + 1) (by omega) (by omega)]
  | succ p ih =>
    rw [Spec.bspline, Spec.bspline, ih i fun k h1 h2 => h k h1 (by omega), ih (i + 1) fun k h1 h2 => h k (by omega) (by omega),
      h i (by omega) (by omega), h (i + 1) (by omega) (by omega), h (i + p + 1) (by omega) (by omega),
      h (i + p + 2) (by omega) (by omega)]

/-- The B-splines are non-negative, with sum at most one. -/
theorem bspline_unit {t : Nat → Rat} (ht : Monotone t) {b x : Rat} {p m : Nat} (hc : Spec.InCell t b x (m + p)) (N : Nat) :
    ∑ i ∈ range N, |Spec.bspline t b p i x| ≤ 1 := by
  have h0 := bspline_nonneg ht hc p
  have hz : ∀ i, ¬ (m ≤ i ∧ i ≤ m + p) → Spec.bspline t b p i x = 0 := fun i hi => by
    rw [bspline_eq_piece ht hc, piece_zero t _ p i (by omega)]; simp
  have h1 := bspline_sum ht hc p m rfl
  rw [← cell_sum (c := m) (p := p) (N := N + (m + p + 1)) (by omega) hz] at h1
  rw [← h1, sum_congr rfl fun i _ => abs_of_nonneg (h0 i)]
  exact sum_le_sum_of_subset_of_nonneg (range_mono (by omega)) fun i _ _ => h0 i

/-- One dimension of the evaluation: B-splines and a coordinate of their domain, with the number of the B-splines and their
values there, and the precision of the computed ones.
On uniform B-splines, whose domain is `n` cells between the computed coordinates `k.rmin` and `k.rmax`, the values are those
of the B-splines on the integers at the distance from `k.rmin` in units of the step, and the coordinates at a relative
distance less than `2⁻⁵⁰` from the upper end are excluded, except for the upper end itself (see `C61_past_the_end`). -/
inductive DimIs (fl : Rat → Rat) : Basis × Rat → Nat × (Nat → Rat) → Nat → Rat → Prop
  | nonUniform {p : Nat} {breaks : List Rat} {u : NUBS Rat} {t : Nat → Rat} {x : Rat} (hp : 0 < p) (hp' : p < 2 ^ 20)
      (hb : GoodBreaks breaks) (hs : breaks.length + 2 * p < 2 ^ 63) (hu : NUBS.mk' p false breaks = .ok u)
      (ht : ∀ k, k < breaks.length + 2 * p → u.knots.coordinate (el1 (BitVec.ofNat 64 k)) = .ok (t k))
      (h1 : t p ≤ x) (h2 : x ≤ t (p + (breaks.length - 1))) :
      DimIs fl (.nonUniform u, x)
        (breaks.length - 1 + p, fun i => Spec.bspline t (t (p + (breaks.length - 1))) p i x) p (9 * p / 2 ^ 53)
  | periodicNonUniform {p : Nat} {breaks : List Rat} {u : NUBS Rat} {t : Nat → Rat} {x : Rat} (hp : 0 < p) (hp' : p < 2 ^ 20)
      (hb : WideEnds fl breaks) (hs : breaks.length + 2 * p < 2 ^ 63) (hu : Rounded.mkNubs fl p true breaks = .ok u)
      (ht : ∀ k, k < breaks.length + 2 * p → u.knots.coordinate (el1 (BitVec.ofNat 64 k)) = .ok (t k))
      (h1 : t p ≤ x) (h2 : x ≤ t (p + (breaks.length - 1))) :
      DimIs fl (.nonUniform u, x)
        (breaks.length - 1 + p, fun i => Spec.bspline t (t (p + (breaks.length - 1))) p i x) p (9 * p / 2 ^ 53)
  | uniform {a b : Rat} {n p : Nat} {k : Knots} {x : Rat} (hab : a < b) (hn : 0 < n) (hn' : n + 1 < 2 ^ 31) (hp : 0 < p)
      (hp' : p < 2 ^ 20) (hres : |a| * n ≤ 2 ^ 46 * (b - a)) (hk : k = mkKnots fl a b n p) (h1 : k.rmin fl ≤ x)
      (h2 : x < k.rmax fl) (h3 : x - k.rmin fl ≤ (1 - 1 / 2 ^ 50) * (n * k.step)) :
      DimIs fl (.uniform k, x) (n + p, fun i => Spec.bspline (intKnot p) (n + 1) p i ((x - k.rmin fl) / k.step)) p
        (p * (p + 13) / 2 ^ 53 + p * (n + 1) / 2 ^ 49)
  | last {a b : Rat} {n p : Nat} {k : Knots} (hab : a < b) (hn : 0 < n) (hn' : n + 1 < 2 ^ 31) (hp : 0 < p)
      (hp' : p < 2 ^ 20) (hres : |a| * n ≤ 2 ^ 46 * (b - a)) (hk : k = mkKnots fl a b n p) :
      DimIs fl (.uniform k, k.rmax fl) (n + p, fun i => Spec.bspline (intKnot p) (n + 1) p i n) p (p * (p + 13) / 2 ^ 53)

theorem int_inCell {p n : Nat} {z : Rat} (h0 : 0 ≤ z) (h1 : z < n + 1) :
    ∃ m, Spec.InCell (intKnot p) (n + 1) z (m + p) := by
  refine ⟨⌊z⌋₊, ?_⟩
  rw [Spec.InCell, if_pos h1, intKnot, intKnot]
  have k1 := Nat.floor_le h0
  have k2 := Nat.lt_floor_add_one z
  push_cast
  constructor <;> linarith

theorem basis_close1 {t : Nat → Rat} {b z ε : Rat} {p N m : Nat} {v : Arr Rat} (hp : p < 2 ^ 20) (hm : m + p < N)
    (h : BasisClose t b p (N + 1) z m v ε (6 * p / 2 ^ 53)) :
    ∃ o : One1 Rat, o.Ok ∧ o.size = N ∧ o.p = p ∧ o.m = m ∧ o.v = v ∧ (∀ i, 0 ≤ o.w i) ∧
      ∑ i ∈ range N, o.w i ≤ 1 + 1 / 2 ^ 30 ∧ ∑ i ∈ range N, |o.w i - Spec.bspline t b p i z| ≤ ε := by
  obtain ⟨q1, q2, f, q3, q4, q5, q6, q7⟩ := h
  have hf : f N = 0 := q4 _ (by omega)
  rw [sum_range_succ] at q6 q7
  rw [hf, add_zero] at q7
  refine ⟨⟨N, p, f, m, v⟩, ⟨q1, hm, q3, fun J hJ => q4 J (by dsimp only at hJ; omega)⟩, rfl, rfl, rfl, rfl, q5, ?_,
    le_trans (le_add_of_nonneg_right (abs_nonneg _)) q6⟩
  have hp1 : (p : Rat) ≤ 1048576 := by exact_mod_cast hp.le
  have h4 : 6 * (p : Rat) / 2 ^ 53 ≤ 1 / 2 ^ 30 := by
    rw [div_le_iff₀ (by norm_num)]
    norm_num
    linarith
  have := (abs_le.1 q7).2
  dsimp only
  linarith

theorem nubs_dim_close (hfl : RoundsAll fl) {u : NUBS Rat} {p n : Nat} {t t' : Nat → Rat} {x : Rat} (hp : 0 < p) (hp' : p < 2 ^ 20)
    (hu' : u.Is p n t') (g0 : t' p < t' (p + 1)) (g1 : t' (p + n - 1) < t' (p + n))
    (ht : ∀ k, k < n + 1 + 2 * p → u.knots.coordinate (el1 (BitVec.ofNat 64 k)) = .ok (t k))
    (h1 : t p ≤ x) (h2 : x ≤ t (p + n)) :
    0 < p ∧ ∑ i ∈ range (n + p), |Spec.bspline t (t (p + n)) p i x| ≤ 1 ∧
    ∃ o : One1 Rat, o.Ok ∧ (Basis.nonUniform u).jminVals fl none x = .ok (o.v, BitVec.ofNat 64 o.m) ∧ o.size = n + p ∧ o.p = p ∧
      (Basis.nonUniform u).degree = p ∧ (∀ i, 0 ≤ o.w i) ∧ ∑ i ∈ range (n + p), o.w i ≤ 1 + 1 / 2 ^ 30 ∧
      ∑ i ∈ range (n + p), |o.w i - Spec.bspline t (t (p + n)) p i x| ≤ 9 * p / 2 ^ 53 := by
  have hsm := hu'.small
  have htt : ∀ k, k < n + 1 + 2 * p → t k = t' k := fun k hk => by
    exact Res.ok.inj ((ht k hk).symm.trans (hu'.coord k (by omega)))
  have eb : ∀ i, i < n + p → Spec.bspline t (t (p + n)) p i x =
      Spec.bspline t' (t' (p + n)) p i x := fun i hi => by
    rw [htt (p + n) (by omega)]
    exact bspline_congr_knots p i fun k _ h2 => htt k (by omega)
  rw [htt p (by omega)] at h1
  rw [htt _ (by omega)] at h2
  obtain ⟨m, v, k1, k2, k3, ⟨k4, k5, f, k6, k7, k8⟩, -⟩ := nubs_evalBasisR hfl hu' hp'.le g0 g1 x h1 h2 (Arr.uninit (p + 1)) rfl
  have hmN : m + p < n + p := by omega
  have hB : BasisClose t' (t' (p + n)) p (n + p) x m v (9 * p / 2 ^ 53) (6 * p / 2 ^ 53) := by
    refine ⟨k4, hmN, fun i => if m ≤ i ∧ i ≤ m + p then f (i - m) else 0, fun r hr => ?_, fun i hi => if_neg hi, fun i => ?_,
      ?_, ?_⟩
    · dsimp only
      rw [if_pos (by omega), Nat.add_sub_cancel_left]; exact (k6 r hr).1
    · dsimp only
      split
      · exact (k6 _ (by omega)).2
      · exact le_refl _
    · dsimp only
      rw [cell_sum hmN (fun i hi => by rw [if_neg hi, k5 i (by omega), sub_zero, abs_zero])]
      refine le_of_eq_of_le (sum_congr rfl fun r hr => ?_) k7
      rw [mem_range] at hr
      rw [if_pos (by omega), Nat.add_sub_cancel_left]
    · dsimp only
      rw [cell_sum hmN (fun i hi => if_neg hi)]
      refine le_of_eq_of_le (congrArg (fun s => |s - 1|) (sum_congr rfl fun r hr => ?_)) k8
      rw [mem_range] at hr
      rw [if_pos (by omega), Nat.add_sub_cancel_left]
  obtain ⟨q1, q2, f', q3, q4, q5, q6, q7⟩ := hB
  refine ⟨hp, ?_, ⟨n + p, p, f', m, v⟩, ⟨q1, q2, q3, fun J hJ => q4 J (by dsimp only at hJ; omega)⟩, ?_, rfl, rfl, hu'.degree, q5,
    ?_, ?_⟩
  · rw [sum_congr rfl fun i hi => by rw [eb i (mem_range.1 hi)]]
    exact bspline_unit hu'.mono k2 _
  · dsimp only
    rw [Basis.jminVals, hu'.degree, k3, Res.ok_bind]
    rfl
  · have hp1 : (p : Rat) ≤ 1048576 := by exact_mod_cast hp'.le
    have h4 : 6 * (p : Rat) / 2 ^ 53 ≤ 1 / 2 ^ 30 := by
      rw [div_le_iff₀ (by norm_num)]
      norm_num
      linarith
    have := (abs_le.1 q7).2
    dsimp only
    linarith
  · dsimp only
    rw [sum_congr rfl fun i hi => by rw [eb i (mem_range.1 hi)]]
    exact q6

theorem DimIs.close (hfl : RoundsAll fl) {d : Basis × Rat} {s : Nat × (Nat → Rat)} {p : Nat} {ε : Rat} (h : DimIs fl d s p ε) :
    0 < p ∧ ∑ i ∈ range s.1, |s.2 i| ≤ 1 ∧
    ∃ o : One1 Rat, o.Ok ∧ d.1.jminVals fl none d.2 = .ok (o.v, BitVec.ofNat 64 o.m) ∧ o.size = s.1 ∧ o.p = p ∧ d.1.degree = p ∧
      (∀ i, 0 ≤ o.w i) ∧ ∑ i ∈ range s.1, o.w i ≤ 1 + 1 / 2 ^ 30 ∧ ∑ i ∈ range s.1, |o.w i - s.2 i| ≤ ε := by
  cases h with
  | @nonUniform p breaks u t x hp hp' hb hs hu ht h1 h2 =>
    have h2' := hb.two
    obtain ⟨u', t', e, -, hu', hk⟩ := NUBS.mk'_is hp false hb.two hs hb.sorted hb.lt
    rw [hu] at e
    obtain rfl := Res.ok.inj e
    obtain ⟨g0, g1⟩ := goodEnds hb hk
    exact nubs_dim_close hfl hp hp' hu' g0 g1 (fun k hk => ht k (by omega)) h1 h2
  | @periodicNonUniform p breaks u t x hp hp' hb hs hu ht h1 h2 =>
    have h2' := hb.two
    obtain ⟨u', t', e, -, hu', -, g0, g1, -⟩ := mkNubs_is hfl hp hs hb
    rw [hu] at e
    obtain rfl := Res.ok.inj e
    exact nubs_dim_close hfl hp hp' hu' g0 g1 (fun k hk => ht k (by omega)) h1 h2
  | @uniform a b n p k x hab hn hn' hp hp' hres hk h1 h2 h3 =>
    obtain ⟨m, v, e, k1, k2, k3, -⟩ := C60_uniform_partial hfl hab hn hn' hp hp' hres hk h1 h2.le (Arr.uninit (p + 1)) rfl
    obtain ⟨hs, hlen⟩ := knots_bounds hfl hab hn (by omega) hp'.le hres
    rw [← hk] at hs hlen
    have hm := k2 h3
    have hkp : k.p = p := by rw [hk]; rfl
    obtain ⟨o, g1, g2, g3, g4, g5, g6, g7, g8⟩ := basis_close1 (N := n + p) hp' (by omega) (k3 h2)
    have hz0 : 0 ≤ (x - k.rmin fl) / k.step := div_nonneg (by linarith) hs.le
    have hz1 : (x - k.rmin fl) / k.step < n + 1 := by
      rw [div_lt_iff₀ hs]
      have : 0 ≤ (n : Rat) * k.step := by positivity
      norm_num at h3 ⊢
      linarith
    obtain ⟨c, hc⟩ := int_inCell (p := p) hz0 hz1
    refine ⟨hp, bspline_unit (intKnot_mono p) hc _, o, g1, ?_, g2, g3, hkp, g6, g7, g8⟩
    dsimp only
    rw [Basis.jminVals, hkp, e, Res.ok_bind, g4, g5]
    dsimp only
    rw [BitVec.ofInt_natCast]
    rfl
  | @last a b n p k hab hn hn' hp hp' hres hk =>
    obtain ⟨hs, hlen⟩ := knots_bounds hfl hab hn (by omega) hp'.le hres
    rw [← hk] at hs hlen
    have hle : k.rmin fl ≤ k.rmax fl := by
      have h1 := (abs_le.1 hlen).1
      have h2 : (1 : Rat) ≤ n := by exact_mod_cast hn
      have h3 : k.step ≤ n * k.step := le_mul_of_one_le_left hs.le h2
      linarith
    obtain ⟨m, v, e, k1, k2, -, k3⟩ := C60_uniform_partial hfl hab hn hn' hp hp' hres hk hle (le_refl _) (Arr.uninit (p + 1)) rfl
    obtain ⟨hm, k3⟩ := k3 rfl
    have hkp : k.p = p := by rw [hk]; rfl
    obtain ⟨o, g1, g2, g3, g4, g5, g6, g7, g8⟩ := basis_close1 (N := n + p) hp' (by omega) k3
    obtain ⟨c, hc⟩ := int_inCell (p := p) (z := (n : Rat)) (Nat.cast_nonneg n) (lt_add_one _)
    refine ⟨hp, bspline_unit (intKnot_mono p) hc _, o, g1, ?_, g2, g3, hkp, g6, g7, g8⟩
    dsimp only
    rw [Basis.jminVals, hkp, e, Res.ok_bind, g4, g5]
    dsimp only
    rw [BitVec.ofInt_natCast]
    rfl

/-! ## Several dimensions -/

/-- One dimension: B-splines, a coordinate, the number of the B-splines, their values at the coordinate, their degree and the
precision of the computed values. -/
structure RDim where
  b : Basis
  x : Rat
  size : Nat
  w : Nat → Rat
  p : Nat
  ε : Rat

/-- See `DimIs`. -/
def RDim.Is (fl : Rat → Rat) (d : RDim) : Prop := DimIs fl (d.b, d.x) (d.size, d.w) d.p d.ε

/-- One dimension of the evaluation of a spline or of a derivative: B-splines, the order of the derivative if any, a
coordinate, the number of the B-splines, their values or derivatives at the coordinate, a bound of the sum of their absolute
values, their degree and the precision of the computed values. -/
structure TDim where
  b : Basis
  order : Option U64
  x : Rat
  size : Nat
  w : Nat → Rat
  W : Rat
  p : Nat
  ε : Rat

/-- What has been computed for one dimension. -/
structure TDim.Computed (fl : Rat → Rat) (d : TDim) (o : One1 Rat) : Prop where
  pos : 0 < d.p
  unit : ∑ i ∈ range d.size, |d.w i| ≤ d.W
  ok : o.Ok
  jmin : d.b.jminVals fl d.order d.x = .ok (o.v, BitVec.ofNat 64 o.m)
  size : o.size = d.size
  degree : o.p = d.p
  degree' : d.b.degree = d.p
  sum : ∑ i ∈ range d.size, |o.w i| ≤ (1 + 1 / 2 ^ 10) * d.W
  near : ∑ i ∈ range d.size, |o.w i - d.w i| ≤ d.ε * d.W
  prec : 0 ≤ d.ε

/-- The values of the B-splines, without derivatives. -/
def RDim.value (d : RDim) : TDim := ⟨d.b, none, d.x, d.size, d.w, 1, d.p, d.ε⟩

theorem RDim.Is.computed (hfl : RoundsAll fl) {d : RDim} (h : d.Is fl) : ∃ o, d.value.Computed fl o := by
  obtain ⟨h1, h2, o, h3, h4, h5, h6, h7, h8, h9, h10⟩ := DimIs.close hfl h
  refine ⟨o, h1, h2, h3, h4, h5, h6, h7, ?_, h10.trans (le_of_eq (mul_one _).symm),
    (sum_nonneg fun _ _ => abs_nonneg _).trans h10⟩
  dsimp only [RDim.value]
  rw [sum_congr rfl fun i _ => abs_of_nonneg (h8 i)]
  exact h9.trans (by norm_num)

theorem computed_list (ds : List TDim) (h : ∀ d ∈ ds, ∃ o, d.Computed fl o) :
    ∃ qs : List (TDim × One1 Rat), ds = qs.map (·.1) ∧ ∀ q ∈ qs, q.1.Computed fl q.2 := by
  induction ds with
  | nil => exact ⟨[], rfl, by simp⟩
  | cons d ds ih =>
    obtain ⟨qs, e, hq⟩ := ih fun x hx => h x (List.mem_cons_of_mem _ hx)
    obtain ⟨o, ho⟩ := h d List.mem_cons_self
    exact ⟨(d, o) :: qs, by rw [List.map_cons, ← e], fun q hq' => by
      rcases List.mem_cons.1 hq' with rfl | hq'
      · exact ho
      · exact hq q hq'⟩

theorem zip_inside (os : List (One1 Rat)) (h : ∀ o ∈ os, o.Ok) (l : List Nat)
    (hl : List.Forall₂ (· < ·) l (os.map fun o => o.p + 1)) :
    List.Forall₂ (· < ·) (List.zipWith (fun (d : One1 Rat) i => d.m + i) os l) (os.map (·.size)) := by
  induction os generalizing l with
  | nil => cases hl; exact .nil
  | cons o os ih =>
    cases l with
    | nil => cases hl
    | cons i l =>
      obtain ⟨hi, hl⟩ := List.forall₂_cons.1 hl
      have := (h o List.mem_cons_self).inside
      dsimp only at hi
      exact .cons (by dsimp only; omega) (ih (fun x hx => h x (List.mem_cons_of_mem _ hx)) l hl)

theorem zip_ofNat (os : List (One1 Rat)) (l : List Nat) :
    List.zipWith (fun j i => j + BitVec.ofNat 64 i) (os.map fun o => BitVec.ofNat 64 o.m) l =
      (List.zipWith (fun (d : One1 Rat) i => d.m + i) os l).map (BitVec.ofNat 64) := by
  induction os generalizing l with
  | nil => rfl
  | cons o os ih =>
    cases l with
    | nil => rfl
    | cons i l =>
      simp only [List.map_cons, List.zipWith_cons_cons, BitVec.ofNat_add]
      rw [ih]

/-- The absolute values. -/
def absOne (o : One1 Rat) : One1 Rat :=
  ⟨o.size, o.p, fun i => |o.w i|, o.m, ⟨o.v.size, fun i => (o.v.val i).map (|·|)⟩⟩

theorem absOne_ok {o : One1 Rat} (h : o.Ok) : (absOne o).Ok :=
  ⟨h.size, h.inside, fun i hi => by
    show (o.v.val i).map (|·|) = some |o.w (o.m + i)|
    rw [h.value i hi]; rfl, fun J hJ => by
    show |o.w J| = 0
    rw [h.other J hJ, abs_zero]⟩

theorem zip_abs (os : List (One1 Rat)) (l : List Nat) :
    |(List.zipWith (fun (d : One1 Rat) i => d.w (d.m + i)) os l).prod| =
      (List.zipWith (fun (d : One1 Rat) i => d.w (d.m + i)) (os.map absOne) l).prod := by
  induction os generalizing l with
  | nil => simp
  | cons o os ih =>
    cases l with
    | nil => simp
    | cons i l =>
      rw [List.map_cons, List.zipWith_cons_cons, List.zipWith_cons_cons, List.prod_cons, List.prod_cons, abs_mul, ih]
      rfl

/-- The sum of the absolute values of the products. -/
theorem nsum_abs (os : List (One1 Rat)) (h : ∀ o ∈ os, o.Ok) (M : Rat) :
    nsum (os.map fun o => o.p + 1) (fun l => M * |(List.zipWith (fun (d : One1 Rat) i => d.w (d.m + i)) os l).prod|) =
      M * (os.map fun o => ∑ J ∈ range o.size, |o.w J|).prod := by
  have k1 := nsum_tensor (os.map absOne) (fun o ho => by
    obtain ⟨o', ho', rfl⟩ := List.mem_map.1 ho
    exact absOne_ok (h o' ho')) (fun _ => M)
  rw [tensor_const, List.map_map, List.map_map, List.map_map] at k1
  simp only [zip_abs]
  exact k1

theorem degrees_pow (ds : List TDim) (h : ∀ d ∈ ds, 0 < d.p) : 2 ^ ds.length ≤ (ds.map fun d => d.p + 1).prod := by
  induction ds with
  | nil => simp
  | cons d ds ih =>
    rw [List.map_cons, List.prod_cons, List.length_cons, pow_succ, mul_comm]
    exact Nat.mul_le_mul (Nat.succ_le_succ (h d List.mem_cons_self)) (ih fun x hx => h x (List.mem_cons_of_mem _ hx))

/-- The precision on the value of the spline: `P` products of values, in `D` dimensions, whose precisions have sum `ε`. -/
def tensorError (P D : Nat) (ε : Rat) : Rat := 5 / 4 * (P + D) / 2 ^ 53 + 17 / 16 * ε

/-- The loops, whatever the order of the products. -/
theorem tensor_computed (hfl : RoundsAll fl) (qs : List (TDim × One1 Rat)) (h : ∀ q ∈ qs, q.1.Computed fl q.2)
    (hP : ((qs.map (·.1)).map fun d => d.p + 1).prod ≤ 2 ^ 40) {c : List Nat → Rat} {M : Rat} (hM : 0 ≤ M)
    (hc : ∀ l, List.Forall₂ (· < ·) l ((qs.map (·.1)).map (·.size)) → |c l| ≤ M) {f : List Nat → Rat → Res Rat}
    (hf : ∀ l y, List.Forall₂ (· < ·) l ((qs.map (·.2)).map fun o => o.p + 1) → ∃ T, f l y = .ok (fl (y + T)) ∧
      |T - c (List.zipWith (fun (d : One1 Rat) i => d.m + i) (qs.map (·.2)) l) *
          (List.zipWith (fun (d : One1 Rat) i => d.w (d.m + i)) (qs.map (·.2)) l).prod| ≤
        17 / 16 * (qs.length : Rat) / 2 ^ 53 * |c (List.zipWith (fun (d : One1 Rat) i => d.m + i) (qs.map (·.2)) l) *
          (List.zipWith (fun (d : One1 Rat) i => d.w (d.m + i)) (qs.map (·.2)) l).prod|) :
    ∃ y, Eval.forEachN f ((qs.map (·.1)).map fun d => d.p + 1) [] 0 = .ok y ∧
      |y - tensor ((qs.map (·.1)).map fun d => (d.size, d.w)) c| ≤
        tensorError ((qs.map (·.1)).map fun d => d.p + 1).prod qs.length ((qs.map (·.1)).map (·.ε)).sum *
          (((qs.map (·.1)).map (·.W)).prod * M) := by
  have hD : qs.length ≤ 40 := by
    have h1 := degrees_pow (qs.map (·.1)) (fun d hd => by
      obtain ⟨q, hq, rfl⟩ := List.mem_map.1 hd
      exact (h q hq).pos)
    rw [List.length_map] at h1
    exact (Nat.pow_le_pow_iff_right (by norm_num)).1 (h1.trans hP)
  obtain ⟨P, hPe⟩ : ∃ P, P = ((qs.map (·.1)).map fun d => d.p + 1).prod := ⟨_, rfl⟩
  have hok : ∀ o ∈ qs.map (·.2), o.Ok := fun o ho => by
    obtain ⟨q, hq, rfl⟩ := List.mem_map.1 ho
    exact (h q hq).ok
  have es : (qs.map (·.2)).map (·.size) = (qs.map (·.1)).map (·.size) := by
    rw [List.map_map, List.map_map]
    exact List.map_congr_left fun q hq => (h q hq).size
  have ep : (qs.map (·.2)).map (fun o => o.p + 1) = (qs.map (·.1)).map fun d => d.p + 1 := by
    rw [List.map_map, List.map_map]
    exact List.map_congr_left fun q hq => by simp only [Function.comp_apply, (h q hq).degree]
  obtain ⟨τ, hτe⟩ : ∃ τ, τ = 17 / 16 * (qs.length : Rat) / 2 ^ 53 := ⟨_, rfl⟩
  have hDr : (qs.length : Rat) ≤ 40 := by exact_mod_cast hD
  have hPr : (P : Rat) ≤ 1099511627776 := by
    have : P ≤ 1099511627776 := by rw [hPe]; exact hP
    exact_mod_cast this
  have hτ0 : 0 ≤ τ := by rw [hτe]; positivity
  have hκ : 17 / 16 * (P : Rat) / 2 ^ 53 + τ ≤ 1 / 32 := by
    rw [hτe]
    norm_num
    linarith
  obtain ⟨y, e, hy⟩ := forEachN_near hfl hτ0 (f := f)
    (g := fun l => c (List.zipWith (fun (d : One1 Rat) i => d.m + i) (qs.map (·.2)) l) *
          (List.zipWith (fun (d : One1 Rat) i => d.w (d.m + i)) (qs.map (·.2)) l).prod)
    (G := fun l => M * |(List.zipWith (fun (d : One1 Rat) i => d.w (d.m + i)) (qs.map (·.2)) l).prod|)
    ((qs.map (·.1)).map fun d => d.p + 1) [] 0 (y := 0) (s := 0) (S := 0) ⟨by simp, by simp⟩
    (by rw [Nat.zero_add, ← hPe]; exact hκ)
    (fun l y hl => by
      rw [List.nil_append]
      rw [← ep] at hl
      obtain ⟨T, k1, k2⟩ := hf l y hl
      have k3 := zip_inside _ hok l hl
      rw [es] at k3
      have k4 : |c (List.zipWith (fun (d : One1 Rat) i => d.m + i) (qs.map (·.2)) l) *
          (List.zipWith (fun (d : One1 Rat) i => d.w (d.m + i)) (qs.map (·.2)) l).prod| ≤
          M * |(List.zipWith (fun (d : One1 Rat) i => d.w (d.m + i)) (qs.map (·.2)) l).prod| := by
        rw [abs_mul]
        exact mul_le_mul_of_nonneg_right (hc _ k3) (abs_nonneg _)
      rw [← hτe] at k2
      exact ⟨T, k1, k2.trans (mul_le_mul_of_nonneg_left k4 hτ0), k4⟩)
  refine ⟨y, e, ?_⟩
  simp only [List.nil_append, zero_add] at hy
  rw [← hPe, ← ep, nsum_tensor _ hok, nsum_abs _ hok] at hy
  have et : (qs.map (·.2)).map (fun d => (d.size, d.w)) =
      (qs.map fun q => (⟨q.1.size, q.2.w, q.1.w, q.1.ε, q.1.W⟩ : Close1)).map fun d => (d.size, d.f) := by
    rw [List.map_map, List.map_map]
    exact List.map_congr_left fun q hq => by simp only [Function.comp_apply, (h q hq).size]
  have et' : (qs.map (·.1)).map (fun d => (d.size, d.w)) =
      (qs.map fun q => (⟨q.1.size, q.2.w, q.1.w, q.1.ε, q.1.W⟩ : Close1)).map fun d => (d.size, d.g) := by
    rw [List.map_map, List.map_map]; rfl
  have hcl : ∀ d ∈ qs.map fun q => (⟨q.1.size, q.2.w, q.1.w, q.1.ε, q.1.W⟩ : Close1), d.Ok (1 + 1 / 2 ^ 10) := fun d hd => by
    obtain ⟨q, hq, rfl⟩ := List.mem_map.1 hd
    exact ⟨(h q hq).sum, (h q hq).unit, (h q hq).near⟩
  have k1 := tensor_near _ (by norm_num) (fun d hd => by
    obtain ⟨q, hq, rfl⟩ := List.mem_map.1 hd
    exact (h q hq).prec) hcl hM (c := c) (fun l hl => hc l (by
    rw [List.map_map] at hl ⊢
    exact hl))
  have hΦ : (1 + 1 / 2 ^ 10 : Rat) ^ qs.length ≤ 17 / 16 :=
    (pow_le_pow_right₀ (by norm_num) hD).trans (by norm_num)
  have hW0 : ∀ q ∈ qs, 0 ≤ q.1.W := fun q hq => (sum_nonneg fun _ _ => abs_nonneg _).trans (h q hq).unit
  have hV0 : 0 ≤ ((qs.map (·.1)).map (·.W)).prod := List.prod_nonneg fun w hw => by
    rw [List.map_map] at hw
    obtain ⟨x, hx, rfl⟩ := List.mem_map.1 hw
    exact hW0 x hx
  have hφ : ((qs.map (·.2)).map fun o => ∑ J ∈ range o.size, |o.w J|).prod ≤ 17 / 16 * ((qs.map (·.1)).map (·.W)).prod := by
    refine le_trans ?_ (mul_le_mul_of_nonneg_right hΦ hV0)
    clear e hf k1 hcl et et' hy hκ hDr hPr hτe hPe ep es hc hP hD hΦ hV0
    induction qs with
    | nil => simp
    | cons q qs ih =>
      have hq := h q List.mem_cons_self
      have ih := ih (fun x hx => h x (List.mem_cons_of_mem _ hx)) (fun o ho => hok o (List.mem_cons_of_mem _ ho))
        (fun o ho => hW0 o (List.mem_cons_of_mem _ ho))
      simp only [List.map_cons, List.prod_cons, List.length_cons]
      have h0 : 0 ≤ ((qs.map (·.2)).map fun o => ∑ J ∈ range o.size, |o.w J|).prod := List.prod_nonneg fun w hw => by
        obtain ⟨x, hx, rfl⟩ := List.mem_map.1 hw
        exact sum_nonneg fun _ _ => abs_nonneg _
      have h1 : ∑ J ∈ range q.2.size, |q.2.w J| ≤ (1 + 1 / 2 ^ 10) * q.1.W := by rw [hq.size]; exact hq.sum
      refine (mul_le_mul h1 ih h0 (mul_nonneg (by norm_num) (hW0 q List.mem_cons_self))).trans (le_of_eq ?_)
      rw [pow_succ]
      ring
  rw [← et, ← et'] at k1
  rw [List.length_map] at k1
  have hε : 0 ≤ ((qs.map (·.1)).map (·.ε)).sum := List.sum_nonneg fun e he => by
    rw [List.map_map] at he
    obtain ⟨x, hx, rfl⟩ := List.mem_map.1 he
    exact (h x hx).prec
  have ee : ((qs.map fun q => (⟨q.1.size, q.2.w, q.1.w, q.1.ε, q.1.W⟩ : Close1)).map (·.ε)).sum = ((qs.map (·.1)).map (·.ε)).sum := by
    rw [List.map_map, List.map_map]; rfl
  have eW : ((qs.map fun q => (⟨q.1.size, q.2.w, q.1.w, q.1.ε, q.1.W⟩ : Close1)).map (·.W)).prod = ((qs.map (·.1)).map (·.W)).prod := by
    rw [List.map_map, List.map_map]; rfl
  rw [ee, eW] at k1
  obtain ⟨V, hV⟩ : ∃ V, V = ((qs.map (·.1)).map (·.W)).prod * M := ⟨_, rfl⟩
  have hV1 : 0 ≤ V := by rw [hV]; exact mul_nonneg hV0 hM
  rw [← hV] at k1 ⊢
  have k2 := hy.near
  have k3 := abs_sub_le y (tensor ((qs.map (·.2)).map fun d => (d.size, d.w)) c) (tensor ((qs.map (·.1)).map fun d => (d.size, d.w)) c)
  have k4 : (17 / 16 * (P : Rat) / 2 ^ 53 + τ) * (M * ((qs.map (·.2)).map fun o => ∑ J ∈ range o.size, |o.w J|).prod) ≤
      (17 / 16 * (P : Rat) / 2 ^ 53 + τ) * (V * (17 / 16)) := by
    refine mul_le_mul_of_nonneg_left ?_ (by positivity)
    rw [hV]
    refine (mul_le_mul_of_nonneg_left hφ hM).trans (le_of_eq ?_)
    ring
  have k5 : (1 + 1 / 2 ^ 10 : Rat) ^ qs.length * ((qs.map (·.1)).map (·.ε)).sum * V ≤ 17 / 16 * ((qs.map (·.1)).map (·.ε)).sum * V := by
    gcongr
  have k6 : (17 / 16 * (P : Rat) / 2 ^ 53 + τ) * (V * (17 / 16)) ≤ 5 / 4 * (P + qs.length) / 2 ^ 53 * V := by
    rw [hτe, show (17 / 16 * (P : Rat) / 2 ^ 53 + 17 / 16 * (qs.length : Rat) / 2 ^ 53) * (V * (17 / 16)) =
      289 / 256 * ((P : Rat) + qs.length) / 2 ^ 53 * V by ring]
    have h0 : (0 : Rat) ≤ P + qs.length := by positivity
    refine mul_le_mul_of_nonneg_right (div_le_div_of_nonneg_right ?_ (by norm_num)) hV1
    linarith
  rw [← hPe, tensorError, add_mul]
  linarith

theorem nd_computed (hfl : RoundsAll fl) {ds : List TDim} (hne : ds ≠ []) (h : ∀ d ∈ ds, ∃ o, d.Computed fl o)
    (hP : (ds.map fun d => d.p + 1).prod ≤ 2 ^ 40) {coef : Coefs Rat} {c : List Nat → Rat} (hh : Holds (ds.map (·.size)) coef c)
    {M : Rat} (hM : 0 ≤ M) (hc : ∀ l, List.Forall₂ (· < ·) l (ds.map (·.size)) → |c l| ≤ M) :
    ∃ y, Rounded.noBcN fl (ds.map fun d => (d.b, d.order, d.x)) coef = .ok y ∧
      |y - tensor (ds.map fun d => (d.size, d.w)) c| ≤
        tensorError (ds.map fun d => d.p + 1).prod ds.length (ds.map (·.ε)).sum * ((ds.map (·.W)).prod * M) := by
  obtain ⟨qs, rfl, hq⟩ := computed_list ds h
  have hD : qs.length ≤ 2 ^ 40 := by
    have h1 := degrees_pow (qs.map (·.1)) (fun d hd => by
      obtain ⟨q, hq', rfl⟩ := List.mem_map.1 hd
      exact (hq q hq').pos)
    rw [List.length_map] at h1
    exact (Nat.lt_two_pow_self.le.trans h1).trans hP
  have hok : ∀ o ∈ qs.map (·.2), o.Ok := fun o ho => by
    obtain ⟨q, hq', rfl⟩ := List.mem_map.1 ho
    exact (hq q hq').ok
  have es : (qs.map (·.2)).map (·.size) = (qs.map (·.1)).map (·.size) := by
    rw [List.map_map, List.map_map]
    exact List.map_congr_left fun q hq' => (hq q hq').size
  have ej : (((qs.map (·.1)).map fun d => (d.b, d.order, d.x)).mapM fun d => d.1.jminVals fl d.2.1 d.2.2) =
      .ok ((qs.map (·.2)).map fun o => (o.v, BitVec.ofNat 64 o.m)) := by
    clear h hP hh hc hne hD hok es
    induction qs with
    | nil => rfl
    | cons q qs ih =>
      simp only [List.map_cons, List.mapM_cons]
      rw [(hq q List.mem_cons_self).jmin, Res.ok_bind, ih fun x hx => hq x (List.mem_cons_of_mem _ hx), Res.ok_bind]
      rfl
  have eb : ((qs.map (·.1)).map fun d => (d.b, d.order, d.x)).map (fun d => d.1.degree + 1) = (qs.map (·.1)).map fun d => d.p + 1 := by
    simp only [List.map_map]
    exact List.map_congr_left fun q hq' => by simp only [Function.comp_apply, (hq q hq').degree']
  rw [Rounded.noBcN, ej, Res.ok_bind, eb, List.length_map]
  refine tensor_computed hfl qs hq hP hM hc fun l y hl => ?_
  obtain ⟨w, k1, k2⟩ := foldVals_near hfl (qs.map (·.2)) (by simpa using hne) (by simpa using hD) hok l hl
  have k3 := zip_inside _ hok l hl
  rw [es] at k3
  refine ⟨fl (c (List.zipWith (fun (d : One1 Rat) i => d.m + i) (qs.map (·.2)) l) * w), ?_, ?_⟩
  · have e1 : ((qs.map (·.2)).map fun o => (o.v, BitVec.ofNat 64 o.m)).map (·.2) = (qs.map (·.2)).map fun o => BitVec.ofNat 64 o.m := by
      simp only [List.map_map, Function.comp_def]
    have e2 : ((qs.map (·.2)).map fun o => (o.v, BitVec.ofNat 64 o.m)).map (·.1) = (qs.map (·.2)).map (·.v) := by
      simp only [List.map_map, Function.comp_def]
    rw [e1, e2, zip_ofNat, hh _ k3, Res.ok_bind, k1, Res.ok_bind]
  · refine (mul_near hfl k2 ?_ _).trans (le_of_eq ?_)
    · have : (((qs.map (·.2)).length : Nat) : Rat) ≤ 1099511627776 := by rw [List.length_map]; exact_mod_cast hD
      rw [div_le_iff₀ (by norm_num)]
      linarith
    · congr 1
      rw [List.length_map]
      ring

/-- In any number of dimensions, on uniform and non-uniform B-splines, and whatever the rounding: the computed value is the
sum over all the products of B-splines, up to a small multiple of the largest coefficient.
Missing: the coordinates of uniform dimensions excluded by `DimIs`, where a coefficient out of bounds may be read. -/
theorem C63_nd_partial (hfl : RoundsAll fl) {ds : List RDim} (hne : ds ≠ []) (h : ∀ d ∈ ds, d.Is fl)
    (hP : (ds.map fun d => d.p + 1).prod ≤ 2 ^ 40) {coef : Coefs Rat} {c : List Nat → Rat} (hh : Holds (ds.map (·.size)) coef c)
    {M : Rat} (hM : 0 ≤ M) (hc : ∀ l, List.Forall₂ (· < ·) l (ds.map (·.size)) → |c l| ≤ M) :
    ∃ y, Rounded.noBcN fl (ds.map fun d => (d.b, none, d.x)) coef = .ok y ∧
      |y - tensor (ds.map fun d => (d.size, d.w)) c| ≤
        tensorError (ds.map fun d => d.p + 1).prod ds.length (ds.map (·.ε)).sum * M := by
  have e1 : ∀ {β : Type} (f : TDim → β), (ds.map RDim.value).map f = ds.map fun d => f d.value := fun f => by rw [List.map_map]; rfl
  obtain ⟨y, e, h⟩ := nd_computed hfl (ds := ds.map RDim.value) (by simpa using hne) (fun d hd => by
      obtain ⟨d', hd', rfl⟩ := List.mem_map.1 hd
      exact (h d' hd').computed hfl) (by rw [e1]; exact hP) (by rw [e1]; exact hh) hM (by rw [e1]; exact hc)
  simp only [e1] at e h
  rw [List.length_map] at h
  refine ⟨y, e, h.trans (le_of_eq ?_)⟩
  rw [show (ds.map fun d => d.value.W).prod = 1 from List.prod_eq_one fun w hw => by
    obtain ⟨d, -, rfl⟩ := List.mem_map.1 hw
    rfl, one_mul]
  rfl

theorem computed_2d (hfl : RoundsAll fl) {d1 d2 : TDim} {o1 : One1 Rat} (k1 : d1.Computed fl o1) {o2 : One1 Rat} (k2 : d2.Computed fl o2) (hP : (d1.p + 1) * (d2.p + 1) ≤ 2 ^ 40)
    {coef : Coefs Rat} {c : Nat → Nat → Rat}
    (hh : ∀ i j, i < d1.size → j < d2.size → coef [BitVec.ofNat 64 i, BitVec.ofNat 64 j] = .ok (c i j))
    {M : Rat} (hM : 0 ≤ M) (hc : ∀ i j, i < d1.size → j < d2.size → |c i j| ≤ M) :
    ∃ y, Rounded.noBc2 fl d1.b d2.b d1.order d2.order d1.x d2.x coef = .ok y ∧
      |y - ∑ i ∈ range d1.size, ∑ j ∈ range d2.size, c i j * d1.w i * d2.w j| ≤
        tensorError ((d1.p + 1) * (d2.p + 1)) 2 (d1.ε + d2.ε) * (d1.W * d2.W * M) := by
  obtain ⟨c', hc'⟩ : ∃ c' : List Nat → Rat, ∀ i j, c' [i, j] = c i j :=
    ⟨fun l => match l with | [i, j] => c i j | _ => 0, fun _ _ => rfl⟩
  obtain ⟨f, hf⟩ : ∃ f : List Nat → Rat → Res Rat, ∀ i j y, f [i, j] y = (do
      let c ← coef [BitVec.ofNat 64 o1.m + BitVec.ofNat 64 i, BitVec.ofNat 64 o2.m + BitVec.ofNat 64 j]
      let w1 ← o1.v.rd i
      let w2 ← o2.v.rd j
      .ok (fl (y + fl (fl (c * w1) * w2)))) :=
    ⟨fun l y => match l with
      | [i, j] => do
        let c ← coef [BitVec.ofNat 64 o1.m + BitVec.ofNat 64 i, BitVec.ofNat 64 o2.m + BitVec.ofNat 64 j]
        let w1 ← o1.v.rd i
        let w2 ← o2.v.rd j
        .ok (fl (y + fl (fl (c * w1) * w2)))
      | _ => .ub, fun _ _ _ => rfl⟩
  obtain ⟨y, e, h⟩ := tensor_computed hfl [(d1, o1), (d2, o2)] (by
      intro q hq
      simp only [List.mem_cons, List.not_mem_nil, or_false] at hq
      rcases hq with rfl | rfl
      · exact k1
      · exact k2) (by simpa using hP) hM (c := c') (by
      intro l hl
      obtain ⟨i, l1, hi, hl1, rfl⟩ := List.forall₂_cons_right_iff.1 hl
      obtain ⟨j, l2, hj, hl2, rfl⟩ := List.forall₂_cons_right_iff.1 hl1
      cases hl2
      clear hl hl1
      rw [hc']
      exact hc i j hi hj) (f := f) (by
      intro l y hl
      obtain ⟨i, l1, hi, hl1, rfl⟩ := List.forall₂_cons_right_iff.1 hl
      obtain ⟨j, l2, hj, hl2, rfl⟩ := List.forall₂_cons_right_iff.1 hl1
      cases hl2
      clear hl hl1
      dsimp only at hi hj
      have g1 := k1.ok.inside
      have g2 := k2.ok.inside
      have s1 := k1.size
      have s2 := k2.size
      have e1 : o1.v.rd i = .ok (o1.w (o1.m + i)) := Arr.rd_ok (by rw [k1.ok.size]; omega) (k1.ok.value i (by omega))
      have e2 : o2.v.rd j = .ok (o2.w (o2.m + j)) := Arr.rd_ok (by rw [k2.ok.size]; omega) (k2.ok.value j (by omega))
      refine ⟨fl (fl (c (o1.m + i) (o2.m + j) * o1.w (o1.m + i)) * o2.w (o2.m + j)), ?_, ?_⟩
      · rw [hf, ← BitVec.ofNat_add, ← BitVec.ofNat_add, hh _ _ (by omega) (by omega), Res.ok_bind, e1, Res.ok_bind, e2,
          Res.ok_bind]
      · simp only [List.map_cons, List.map_nil, List.zipWith_cons_cons, List.zipWith_nil_left, List.prod_cons, List.prod_nil,
          mul_one, hc', List.length_cons, List.length_nil]
        have a0 : |c (o1.m + i) (o2.m + j) - c (o1.m + i) (o2.m + j)| ≤ 0 * |c (o1.m + i) (o2.m + j)| := by simp
        have a1 := mul_near' hfl (mul_near' hfl a0 (by norm_num) (o1.w (o1.m + i))) (by norm_num) (o2.w (o2.m + j))
        rw [mul_assoc (c _ _)] at a1
        refine a1.trans (le_of_eq ?_)
        congr 1
        push_cast
        norm_num)
  refine ⟨y, ?_, ?_⟩
  · rw [Rounded.noBc2, k1.jmin, Res.ok_bind]
    dsimp only
    rw [k2.jmin, Res.ok_bind]
    dsimp only
    rw [k1.degree', k2.degree', ← e]
    simp only [List.map_cons, List.map_nil, Eval.forEachN, List.nil_append, List.cons_append, hf]
  · refine le_of_eq_of_le ?_ (h.trans (le_of_eq ?_))
    · congr 2
      simp only [List.map_cons, List.map_nil, tensor, hc', mul_sum]
      refine sum_congr rfl fun i _ => sum_congr rfl fun j _ => by ring
    · simp

/-- In two dimensions.
Missing: the same as in `C63_nd_partial`. -/
theorem C63_2d_partial (hfl : RoundsAll fl) {d1 d2 : RDim} (h1 : d1.Is fl) (h2 : d2.Is fl) (hP : (d1.p + 1) * (d2.p + 1) ≤ 2 ^ 40)
    {coef : Coefs Rat} {c : Nat → Nat → Rat}
    (hh : ∀ i j, i < d1.size → j < d2.size → coef [BitVec.ofNat 64 i, BitVec.ofNat 64 j] = .ok (c i j))
    {M : Rat} (hM : 0 ≤ M) (hc : ∀ i j, i < d1.size → j < d2.size → |c i j| ≤ M) :
    ∃ y, Rounded.noBc2 fl d1.b d2.b none none d1.x d2.x coef = .ok y ∧
      |y - ∑ i ∈ range d1.size, ∑ j ∈ range d2.size, c i j * d1.w i * d2.w j| ≤
        tensorError ((d1.p + 1) * (d2.p + 1)) 2 (d1.ε + d2.ε) * M := by
  obtain ⟨o1, k1⟩ := h1.computed hfl
  obtain ⟨o2, k2⟩ := h2.computed hfl
  obtain ⟨y, e, h⟩ := computed_2d hfl k1 k2 hP hh hM hc
  exact ⟨y, e, h.trans (le_of_eq (by simp [RDim.value]))⟩

theorem computed_3d (hfl : RoundsAll fl) {d1 d2 d3 : TDim} {o1 : One1 Rat} (k1 : d1.Computed fl o1) {o2 : One1 Rat} (k2 : d2.Computed fl o2) {o3 : One1 Rat} (k3 : d3.Computed fl o3)
    (hP : (d1.p + 1) * (d2.p + 1) * (d3.p + 1) ≤ 2 ^ 40) {coef : Coefs Rat} {c : Nat → Nat → Nat → Rat}
    (hh : ∀ i j k, i < d1.size → j < d2.size → k < d3.size →
      coef [BitVec.ofNat 64 i, BitVec.ofNat 64 j, BitVec.ofNat 64 k] = .ok (c i j k))
    {M : Rat} (hM : 0 ≤ M) (hc : ∀ i j k, i < d1.size → j < d2.size → k < d3.size → |c i j k| ≤ M) :
    ∃ y, Rounded.noBc3 fl d1.b d2.b d3.b d1.order d2.order d3.order d1.x d2.x d3.x coef = .ok y ∧
      |y - ∑ i ∈ range d1.size, ∑ j ∈ range d2.size, ∑ k ∈ range d3.size, c i j k * d1.w i * d2.w j * d3.w k| ≤
        tensorError ((d1.p + 1) * (d2.p + 1) * (d3.p + 1)) 3 (d1.ε + d2.ε + d3.ε) * (d1.W * d2.W * d3.W * M) := by
  obtain ⟨c', hc'⟩ : ∃ c' : List Nat → Rat, ∀ i j k, c' [i, j, k] = c i j k :=
    ⟨fun l => match l with | [i, j, k] => c i j k | _ => 0, fun _ _ _ => rfl⟩
  obtain ⟨f, hf⟩ : ∃ f : List Nat → Rat → Res Rat, ∀ i j k y, f [i, j, k] y = (do
      let c ← coef [BitVec.ofNat 64 o1.m + BitVec.ofNat 64 i, BitVec.ofNat 64 o2.m + BitVec.ofNat 64 j,
        BitVec.ofNat 64 o3.m + BitVec.ofNat 64 k]
      let w1 ← o1.v.rd i
      let w2 ← o2.v.rd j
      let w3 ← o3.v.rd k
      .ok (fl (y + fl (fl (fl (c * w1) * w2) * w3)))) :=
    ⟨fun l y => match l with
      | [i, j, k] => do
        let c ← coef [BitVec.ofNat 64 o1.m + BitVec.ofNat 64 i, BitVec.ofNat 64 o2.m + BitVec.ofNat 64 j,
          BitVec.ofNat 64 o3.m + BitVec.ofNat 64 k]
        let w1 ← o1.v.rd i
        let w2 ← o2.v.rd j
        let w3 ← o3.v.rd k
        .ok (fl (y + fl (fl (fl (c * w1) * w2) * w3)))
      | _ => .ub, fun _ _ _ _ => rfl⟩
  obtain ⟨y, e, h⟩ := tensor_computed hfl [(d1, o1), (d2, o2), (d3, o3)] (by
      intro q hq
      simp only [List.mem_cons, List.not_mem_nil, or_false] at hq
      rcases hq with rfl | rfl | rfl
      · exact k1
      · exact k2
      · exact k3) (by simpa [mul_assoc] using hP) hM (c := c') (by
      intro l hl
      obtain ⟨i, l1, hi, hl1, rfl⟩ := List.forall₂_cons_right_iff.1 hl
      obtain ⟨j, l2, hj, hl2, rfl⟩ := List.forall₂_cons_right_iff.1 hl1
      obtain ⟨k, l3, hk, hl3, rfl⟩ := List.forall₂_cons_right_iff.1 hl2
      cases hl3
      clear hl hl1 hl2
      rw [hc']
      exact hc i j k hi hj hk) (f := f) (by
      intro l y hl
      obtain ⟨i, l1, hi, hl1, rfl⟩ := List.forall₂_cons_right_iff.1 hl
      obtain ⟨j, l2, hj, hl2, rfl⟩ := List.forall₂_cons_right_iff.1 hl1
      obtain ⟨k, l3, hk, hl3, rfl⟩ := List.forall₂_cons_right_iff.1 hl2
      cases hl3
      clear hl hl1 hl2
      dsimp only at hi hj hk
      have g1 := k1.ok.inside
      have g2 := k2.ok.inside
      have g3 := k3.ok.inside
      have s1 := k1.size
      have s2 := k2.size
      have s3 := k3.size
      have e1 : o1.v.rd i = .ok (o1.w (o1.m + i)) := Arr.rd_ok (by rw [k1.ok.size]; omega) (k1.ok.value i (by omega))
      have e2 : o2.v.rd j = .ok (o2.w (o2.m + j)) := Arr.rd_ok (by rw [k2.ok.size]; omega) (k2.ok.value j (by omega))
      have e3 : o3.v.rd k = .ok (o3.w (o3.m + k)) := Arr.rd_ok (by rw [k3.ok.size]; omega) (k3.ok.value k (by omega))
      obtain ⟨C, hC⟩ : ∃ C, C = c (o1.m + i) (o2.m + j) (o3.m + k) := ⟨_, rfl⟩
      refine ⟨fl (fl (fl (C * o1.w (o1.m + i)) * o2.w (o2.m + j)) * o3.w (o3.m + k)), ?_, ?_⟩
      · rw [hf, ← BitVec.ofNat_add, ← BitVec.ofNat_add, ← BitVec.ofNat_add, hh _ _ _ (by omega) (by omega) (by omega),
          Res.ok_bind, e1, Res.ok_bind, e2, Res.ok_bind, e3, Res.ok_bind, ← hC]
      · simp only [List.map_cons, List.map_nil, List.zipWith_cons_cons, List.zipWith_nil_left, List.prod_cons, List.prod_nil,
          mul_one, hc', List.length_cons, List.length_nil, ← hC]
        have a0 : |C - C| ≤ 0 * |C| := by simp
        have a1 := mul_near' hfl (mul_near' hfl (mul_near' hfl a0 (by norm_num) (o1.w (o1.m + i))) (by norm_num)
          (o2.w (o2.m + j))) (by norm_num) (o3.w (o3.m + k))
        rw [mul_assoc (C * _), mul_assoc C] at a1
        refine a1.trans (le_of_eq ?_)
        congr 1
        push_cast
        norm_num)
  refine ⟨y, ?_, ?_⟩
  · rw [Rounded.noBc3, k1.jmin, Res.ok_bind]
    dsimp only
    rw [k2.jmin, Res.ok_bind]
    dsimp only
    rw [k3.jmin, Res.ok_bind]
    dsimp only
    rw [k1.degree', k2.degree', k3.degree', ← e]
    simp only [List.map_cons, List.map_nil, Eval.forEachN, List.nil_append, List.cons_append, hf]
  · refine le_of_eq_of_le ?_ (h.trans (le_of_eq ?_))
    · congr 2
      simp only [List.map_cons, List.map_nil, tensor, hc', mul_sum]
      refine sum_congr rfl fun i _ => sum_congr rfl fun j _ => sum_congr rfl fun k _ => by ring
    · simp [mul_assoc, add_assoc]

/-- In three dimensions.
Missing: the same as in `C63_nd_partial`. -/
theorem C63_3d_partial (hfl : RoundsAll fl) {d1 d2 d3 : RDim} (h1 : d1.Is fl) (h2 : d2.Is fl) (h3 : d3.Is fl)
    (hP : (d1.p + 1) * (d2.p + 1) * (d3.p + 1) ≤ 2 ^ 40) {coef : Coefs Rat} {c : Nat → Nat → Nat → Rat}
    (hh : ∀ i j k, i < d1.size → j < d2.size → k < d3.size →
      coef [BitVec.ofNat 64 i, BitVec.ofNat 64 j, BitVec.ofNat 64 k] = .ok (c i j k))
    {M : Rat} (hM : 0 ≤ M) (hc : ∀ i j k, i < d1.size → j < d2.size → k < d3.size → |c i j k| ≤ M) :
    ∃ y, Rounded.noBc3 fl d1.b d2.b d3.b none none none d1.x d2.x d3.x coef = .ok y ∧
      |y - ∑ i ∈ range d1.size, ∑ j ∈ range d2.size, ∑ k ∈ range d3.size, c i j k * d1.w i * d2.w j * d3.w k| ≤
        tensorError ((d1.p + 1) * (d2.p + 1) * (d3.p + 1)) 3 (d1.ε + d2.ε + d3.ε) * M := by
  obtain ⟨o1, k1⟩ := h1.computed hfl
  obtain ⟨o2, k2⟩ := h2.computed hfl
  obtain ⟨o3, k3⟩ := h3.computed hfl
  obtain ⟨y, e, h⟩ := computed_3d hfl k1 k2 k3 hP hh hM hc
  exact ⟨y, e, h.trans (le_of_eq (by simp [RDim.value]))⟩

/-- Cubic splines on ten cells of `[0, 3.1]` and quadratic splines on non-uniform cells. -/
example : ∃ d1 d2 : RDim, d1.Is round53 ∧ d2.Is round53 ∧ d1.size = 13 ∧ d2.size = 8 ∧
    ∃ y, Rounded.noBc2 round53 d1.b d2.b none none d1.x d2.x (fun l => match l with
      | [i, j] => if i.toNat < 13 ∧ j.toNat < 8 then .ok ((-1) ^ i.toNat * j.toNat) else .ub
      | _ => .ub) = .ok y ∧
      |y - ∑ i ∈ range 13, ∑ j ∈ range 8, (-1) ^ i * j * d1.w i * d2.w j| ≤ 1 / 2 ^ 35 := by
  have hb : GoodBreaks [(0 : Rat), 1, 3, 4, 6, 6, 7] :=
    ⟨by decide, (isSorted_iff _).1 (by decide +kernel), by decide +kernel, by decide +kernel⟩
  obtain ⟨u, t, e, -, hk1, hk2, -⟩ := C61_non_uniform round53_all 2 (by norm_num) (by norm_num)
    [(0 : Rat), 1, 3, 4, 6, 6, 7] hb (by decide)
  have h1 := DimIs.uniform (fl := round53) (a := 0) (b := round53 (31 / 10)) (n := 10) (p := 3) (x := round53 (3 / 2))
    (by decide +kernel) (by norm_num) (by norm_num) (by norm_num) (by norm_num) (by norm_num; decide +kernel) rfl
    (by decide +kernel) (by decide +kernel) (by decide +kernel)
  have h2 := DimIs.nonUniform (fl := round53) (p := 2) (x := round53 (16 / 3)) (by norm_num) (by norm_num) hb (by decide) e hk2
    (by rw [show 2 = 2 + 0 by rfl, hk1 0 (by decide)]; decide +kernel) (by rw [hk1 _ (by decide)]; decide +kernel)
  refine ⟨⟨_, _, _, _, _, _⟩, ⟨_, _, _, _, _, _⟩, h1, h2, rfl, rfl, ?_⟩
  obtain ⟨y, e, h⟩ := C63_2d_partial round53_all (d1 := ⟨_, _, _, _, _, _⟩) (d2 := ⟨_, _, _, _, _, _⟩) h1 h2 (by norm_num)
    (coef := fun l => match l with
      | [i, j] => if i.toNat < 13 ∧ j.toNat < 8 then .ok ((-1) ^ i.toNat * j.toNat) else .ub
      | _ => .ub) (c := fun i j => (-1) ^ i * j)
    (fun i j hi hj => by
      have e1 : (BitVec.ofNat 64 i).toNat = i := by
        rw [BitVec.toNat_ofNat]; dsimp only at hi; omega
      have e2 : (BitVec.ofNat 64 j).toNat = j := by
        rw [BitVec.toNat_ofNat]; simp only [List.length_cons, List.length_nil] at hj; omega
      dsimp only
      rw [e1, e2, if_pos ⟨by simpa using hi, by simpa using hj⟩]) (M := 8) (by norm_num)
    (fun i j hi hj => by
      rw [abs_mul, abs_pow, abs_neg, abs_one, one_pow, one_mul, abs_of_nonneg (Nat.cast_nonneg j)]
      have : j ≤ 8 := by simp only [List.length_cons, List.length_nil] at hj; omega
      exact_mod_cast this)
  exact ⟨y, e, h.trans (by rw [tensorError]; norm_num)⟩

end DDC.Props
