import Verif.Model.RoundedQuadrature
import Verif.Props.C55
import Verif.Props.C63
import Verif.Props.C69

/-!
# C73 — integrals of splines in several dimensions with rounding
-/

namespace DDC.Props

open DDC.One Rounded Spec Finset

variable {fl : Rat → Rat}

/-! ## Products -/

theorem foldLeft_near (hfl : RoundsAll fl) (ws : List Rat) {m : Nat} (hm : m + ws.length ≤ 80) {z a : Rat}
    (h : |z - a| ≤ 17 / 16 * (m : Rat) / 2 ^ 53 * |a|) :
    |ws.foldl (fun z w => fl (z * w)) z - a * ws.prod| ≤
      17 / 16 * ((m + ws.length : Nat) : Rat) / 2 ^ 53 * |a * ws.prod| := by
  induction ws generalizing m z a with
  | nil => simpa using h
  | cons w ws ih =>
    rw [List.length_cons] at hm
    have h1 := mul_near' hfl h (by
      have : (m : Rat) ≤ 80 := by exact_mod_cast (by omega : m ≤ 80)
      rw [div_le_iff₀ (by norm_num)]
      norm_num
      linarith) w
    rw [show 17 / 16 * (m : Rat) / 2 ^ 53 + 17 / 16 / 2 ^ 53 = 17 / 16 * ((m + 1 : Nat) : Rat) / 2 ^ 53 by push_cast; ring] at h1
    have := ih (m := m + 1) (by omega) h1
    rw [List.foldl_cons, List.prod_cons, List.length_cons, ← mul_assoc, show m + (ws.length + 1) = m + 1 + ws.length by omega]
    exact this

theorem foldRight_near (hfl : RoundsAll fl) (ws : List Rat) (hm : ws.length ≤ 80) :
    |Rounded.foldRight fl ws - ws.prod| ≤ 17 / 16 * ((ws.length - 1 : Nat) : Rat) / 2 ^ 53 * |ws.prod| := by
  induction ws with
  | nil => simp [Rounded.foldRight]
  | cons w ws ih =>
    cases ws with
    | nil => simp [Rounded.foldRight]
    | cons w' ws =>
      have ih := ih (by rw [List.length_cons] at hm; omega)
      rw [Rounded.foldRight, List.prod_cons]
      · refine (mul_near hfl ih ?_ w).trans (le_of_eq ?_)
        · have : (((w' :: ws).length - 1 : Nat) : Rat) ≤ 80 := by
            exact_mod_cast (by rw [List.length_cons] at hm; omega : (w' :: ws).length - 1 ≤ 80)
          rw [div_le_iff₀ (by norm_num)]
          norm_num only
          linarith
        · congr 1
          simp only [List.length_cons, Nat.add_sub_cancel]
          push_cast
          ring
      · simp

/-- Both orders of the products. -/
theorem product_near (hfl : RoundsAll fl) (f : Fold) (c : Rat) {ws : List Rat} (hne : ws ≠ []) (hm : ws.length ≤ 80) :
    |f.product fl c ws - c * ws.prod| ≤ 17 / 16 * (ws.length : Rat) / 2 ^ 53 * |c * ws.prod| := by
  cases f with
  | left => simpa [Fold.product] using foldLeft_near hfl ws (m := 0) (by omega) (z := c) (a := c) (by simp)
  | right =>
    have h1 := foldRight_near hfl ws hm
    have hl : 1 ≤ ws.length := List.length_pos_of_ne_nil hne
    refine (mul_near hfl h1 ?_ c).trans (le_of_eq ?_)
    · have : ((ws.length - 1 : Nat) : Rat) ≤ 80 := by exact_mod_cast (by omega : ws.length - 1 ≤ 80)
      rw [div_le_iff₀ (by norm_num)]
      norm_num
      linarith
    · congr 1
      push_cast [Nat.cast_sub hl]
      ring

/-! ## The loops -/

/-- An array of values, its size, the values computed and the values that they should be. -/
structure ICol where
  v : Chunk1 Rat
  N : Nat
  f : Nat → Rat
  g : Nat → Rat
  W : Rat
  ε : Rat

structure ICol.Ok (a : ICol) : Prop where
  values : Values a.v a.N a.f
  unit : ∑ i ∈ range a.N, |a.g i| ≤ a.W
  near : ∑ i ∈ range a.N, |a.f i - a.g i| ≤ a.ε * a.W
  prec : 0 ≤ a.ε
  small : a.ε ≤ 1 / 2 ^ 10

theorem forLoop_same {σ : Type} {f g : Nat → σ → Res σ} (n lo : Nat) (s : σ)
    (h : ∀ i s, lo ≤ i → i < lo + n → f i s = g i s) : forLoop f lo n s = forLoop g lo n s := by
  induction n generalizing lo s with
  | zero => rfl
  | succ n ih =>
    rw [forLoop, forLoop, h lo s (le_refl _) (by omega)]
    congr 1
    funext s
    exact ih (lo + 1) s fun i s h1 h2 => h i s (by omega) (by omega)

/-- The body of the loops, for the indices `l`. -/
def intBody (fl : Rat → Rat) (F : Fold) (coef : Coefs Rat) (as : List ICol) (l : List Nat) (y : Rat) : Res Rat :=
  Rounded.intLoop fl F coef [] (List.zipWith (fun (a : ICol) i => (a.v, el () i)) as l) y

theorem zip_snoc {bs : List ICol} {is : List Nat} (hl : is.length = bs.length) (a : ICol) (i : Nat) :
    List.zipWith (fun (a : ICol) i => (a.v, el () i)) (bs ++ [a]) (is ++ [i]) =
      List.zipWith (fun (a : ICol) i => (a.v, el () i)) bs is ++ [(a.v, el () i)] := by
  rw [List.zipWith_append hl.symm]
  rfl

theorem intLoop_forEach (F : Fold) (coef : Coefs Rat) (as : List ICol) (h : ∀ a ∈ as, a.Ok) (bs : List ICol) (is : List Nat)
    (hl : is.length = bs.length) (y : Rat) :
    Rounded.intLoop fl F coef (as.map (·.v)) (List.zipWith (fun (a : ICol) i => (a.v, el () i)) bs is) y =
      Eval.forEachN (intBody fl F coef (bs ++ as)) (as.map (·.N)) is y := by
  induction as generalizing bs is y with
  | nil => rw [List.append_nil]; rfl
  | cons a as ih =>
    obtain ⟨hN, hOn, -⟩ := (h a List.mem_cons_self).values
    rw [List.map_cons, List.map_cons, Rounded.intLoop, Eval.forEachN, hOn.1, hostForEach1_seg (Nat.zero_le _) (by omega), Nat.sub_zero]
    refine forLoop_same _ _ _ fun i s _ _ => ?_
    have := ih (fun x hx => h x (List.mem_cons_of_mem _ hx)) (bs ++ [a]) (is ++ [i]) (by simp [hl]) s
    rw [zip_snoc hl] at this
    rw [Nat.zero_add, this, List.append_assoc]
    rfl

theorem intBody_ok (F : Fold) {coef : Coefs Rat} {c : List Nat → Rat} (as : List ICol) (h : ∀ a ∈ as, a.Ok)
    (hc : Holds (as.map (·.N)) coef c) (l : List Nat) (hl : List.Forall₂ (· < ·) l (as.map (·.N))) (y : Rat) :
    intBody fl F coef as l y = .ok (fl (y + F.product fl (c l) (List.zipWith (fun (a : ICol) i => a.f i) as l))) := by
  have e1 : (List.zipWith (fun (a : ICol) i => (a.v, el () i)) as l).mapM (fun a => uid1 a.2) = .ok (l.map (BitVec.ofNat 64)) := by
    clear hc
    induction as generalizing l with
    | nil => cases hl; rfl
    | cons a as ih =>
      cases l with
      | nil => cases hl
      | cons i l =>
        obtain ⟨h1, h2⟩ := List.forall₂_cons.1 hl
        rw [List.zipWith_cons_cons, List.mapM_cons, ih (fun x hx => h x (List.mem_cons_of_mem _ hx)) l h2]
        rfl
  have e2 : (List.zipWith (fun (a : ICol) i => (a.v, el () i)) as l).mapM (fun a => a.1.get a.2) =
      .ok (List.zipWith (fun (a : ICol) i => a.f i) as l) := by
    clear hc e1
    induction as generalizing l with
    | nil => cases hl; rfl
    | cons a as ih =>
      cases l with
      | nil => cases hl
      | cons i l =>
        obtain ⟨h1, h2⟩ := List.forall₂_cons.1 hl
        obtain ⟨hN, hOn, hv⟩ := (h a List.mem_cons_self).values
        rw [List.zipWith_cons_cons, List.mapM_cons, Chunk1.get_ok hOn hN h1 (hv _ h1), Res.ok_bind,
          ih (fun x hx => h x (List.mem_cons_of_mem _ hx)) l h2]
        rfl
  rw [intBody, Rounded.intLoop, e1, Res.ok_bind, hc l hl, Res.ok_bind, e2, Res.ok_bind]

theorem nsum_zip (as : List ICol) (c : List Nat → Rat) :
    (nsum (as.map (·.N)) fun l => c l * (List.zipWith (fun (a : ICol) i => a.f i) as l).prod) =
      tensor (as.map fun a => (a.N, a.f)) c := by
  have key : ∀ (as : List ICol) (c : List Nat → Rat) (z : Rat),
      (nsum (as.map (·.N)) fun l => c l * (z * (List.zipWith (fun (a : ICol) i => a.f i) as l).prod)) =
      z * tensor (as.map fun a => (a.N, a.f)) c := by
    intro as
    induction as with
    | nil => intro c z; simp [nsum, tensor, mul_comm]
    | cons a as ih =>
      intro c z
      simp only [List.map_cons, nsum, tensor, List.zipWith_cons_cons, List.prod_cons]
      rw [mul_sum]
      refine sum_congr rfl fun i _ => ?_
      have := ih (fun l => c (i :: l)) (z * a.f i)
      simp only [← mul_assoc] at this ⊢
      rw [this]
  have := key as c 1
  simpa using this

/-- What the loops compute. -/
theorem intLoop_near (hfl : RoundsAll fl) (F : Fold) {as : List ICol} (hne : as ≠ []) (hlen : as.length ≤ 40) (h : ∀ a ∈ as, a.Ok)
    (hP : (as.map (·.N)).prod ≤ 2 ^ 40) {coef : Coefs Rat} {c : List Nat → Rat} (hc : Holds (as.map (·.N)) coef c)
    {M : Rat} (hM : 0 ≤ M) (hcM : ∀ l, List.Forall₂ (· < ·) l (as.map (·.N)) → |c l| ≤ M) :
    ∃ y, Rounded.intLoop fl F coef (as.map (·.v)) [] 0 = .ok y ∧
      |y - tensor (as.map fun a => (a.N, a.g)) c| ≤
        tensorError (as.map (·.N)).prod as.length (as.map (·.ε)).sum * ((as.map (·.W)).prod * M) := by
  obtain ⟨P, hPe⟩ : ∃ P, P = (as.map (·.N)).prod := ⟨_, rfl⟩
  obtain ⟨τ, hτe⟩ : ∃ τ, τ = 17 / 16 * (as.length : Rat) / 2 ^ 53 := ⟨_, rfl⟩
  have hDr : (as.length : Rat) ≤ 40 := by exact_mod_cast hlen
  have hPr : (P : Rat) ≤ 1099511627776 := by
    have : P ≤ 1099511627776 := by rw [hPe]; exact hP
    exact_mod_cast this
  have hτ0 : 0 ≤ τ := by rw [hτe]; positivity
  have hκ : 17 / 16 * (P : Rat) / 2 ^ 53 + τ ≤ 1 / 32 := by
    rw [hτe]
    norm_num
    linarith
  have hlz : ∀ l, List.Forall₂ (· < ·) l (as.map (·.N)) → (List.zipWith (fun (a : ICol) i => a.f i) as l).length = as.length := by
    intro l hl
    have := hl.length_eq
    rw [List.length_map] at this
    rw [List.length_zipWith]
    omega
  obtain ⟨y, e, hy⟩ := forEachN_near hfl hτ0 (f := intBody fl F coef as)
    (g := fun l => c l * (List.zipWith (fun (a : ICol) i => a.f i) as l).prod)
    (G := fun l => M * |(List.zipWith (fun (a : ICol) i => a.f i) as l).prod|)
    (as.map (·.N)) [] 0 (y := 0) (s := 0) (S := 0) ⟨by simp, by simp⟩
    (by rw [Nat.zero_add, ← hPe]; exact hκ)
    (fun l y hl => by
      rw [List.nil_append]
      have k4 : |c l * (List.zipWith (fun (a : ICol) i => a.f i) as l).prod| ≤
          M * |(List.zipWith (fun (a : ICol) i => a.f i) as l).prod| := by
        rw [abs_mul]
        exact mul_le_mul_of_nonneg_right (hcM _ hl) (abs_nonneg _)
      have k5 := product_near hfl F (c l) (ws := List.zipWith (fun (a : ICol) i => a.f i) as l)
        (List.ne_nil_of_length_pos (by rw [hlz l hl]; exact List.length_pos_of_ne_nil hne)) (by rw [hlz l hl]; omega)
      rw [hlz l hl, ← hτe] at k5
      exact ⟨_, intBody_ok F as h hc l hl y, k5.trans (mul_le_mul_of_nonneg_left k4 hτ0), k4⟩)
  refine ⟨y, ?_, ?_⟩
  · have := intLoop_forEach (fl := fl) F coef as h [] [] rfl 0
    rw [List.nil_append] at this
    rw [← e, ← this]
    rfl
  · simp only [List.nil_append, zero_add] at hy
    rw [← hPe, nsum_zip] at hy
    have hW0 : ∀ a ∈ as, 0 ≤ a.W := fun a ha => (sum_nonneg fun _ _ => abs_nonneg _).trans (h a ha).unit
    have hsum : ∀ a ∈ as, ∑ i ∈ range a.N, |a.f i| ≤ (1 + 1 / 2 ^ 10) * a.W := fun a ha => by
      have h1 := (h a ha).near
      have h2 := (h a ha).unit
      have h3 := mul_le_mul_of_nonneg_right (h a ha).small (hW0 a ha)
      have h4 : ∑ i ∈ range a.N, |a.f i| ≤ ∑ i ∈ range a.N, (|a.g i| + |a.f i - a.g i|) := sum_le_sum fun i _ => by
        have := abs_sub_abs_le_abs_sub (a.f i) (a.g i)
        linarith
      rw [sum_add_distrib] at h4
      linarith
    have et : as.map (fun d => (d.N, d.f)) =
        (as.map fun q => (⟨q.N, q.f, q.g, q.ε, q.W⟩ : Close1)).map fun d => (d.size, d.f) := by
      rw [List.map_map]; rfl
    have et' : as.map (fun d => (d.N, d.g)) =
        (as.map fun q => (⟨q.N, q.f, q.g, q.ε, q.W⟩ : Close1)).map fun d => (d.size, d.g) := by
      rw [List.map_map]; rfl
    have hcl : ∀ d ∈ as.map fun q => (⟨q.N, q.f, q.g, q.ε, q.W⟩ : Close1), d.Ok (1 + 1 / 2 ^ 10) := fun d hd => by
      obtain ⟨q, hq, rfl⟩ := List.mem_map.1 hd
      exact ⟨hsum q hq, (h q hq).unit, (h q hq).near⟩
    have k1 := tensor_near _ (by norm_num) (fun d hd => by
      obtain ⟨q, hq, rfl⟩ := List.mem_map.1 hd
      exact (h q hq).prec) hcl hM (c := c) (fun l hl => hcM l (by
      rw [List.map_map] at hl
      exact hl))
    have hΦ : (1 + 1 / 2 ^ 10 : Rat) ^ as.length ≤ 17 / 16 :=
      (pow_le_pow_right₀ (by norm_num) hlen).trans (by norm_num)
    have hV0 : 0 ≤ (as.map (·.W)).prod := List.prod_nonneg fun w hw => by
      obtain ⟨x, hx, rfl⟩ := List.mem_map.1 hw
      exact hW0 x hx
    have hφ : (nsum (as.map (·.N)) fun l => M * |(List.zipWith (fun (a : ICol) i => a.f i) as l).prod|) ≤
        M * (17 / 16 * (as.map (·.W)).prod) := by
      have hz : ∀ l : List Nat, |(List.zipWith (fun (a : ICol) i => a.f i) as l).prod| =
          (List.zipWith (fun (a : ICol) i => a.f i) (as.map fun a => { a with f := fun i => |a.f i| }) l).prod := by
        clear * -
        intro l
        induction as generalizing l with
        | nil => simp
        | cons a as ih =>
          cases l with
          | nil => simp
          | cons i l =>
            simp only [List.map_cons, List.zipWith_cons_cons, List.prod_cons]
            rw [abs_mul, ih]
      have hm : as.map (·.N) = (as.map fun a => ({ a with f := fun i => |a.f i| } : ICol)).map (·.N) := by rw [List.map_map]; rfl
      simp only [hz]
      rw [hm, nsum_zip _ fun _ => M, tensor_const]
      refine mul_le_mul_of_nonneg_left (le_trans ?_ (mul_le_mul_of_nonneg_right hΦ hV0)) hM
      simp only [List.map_map, Function.comp_def]
      clear * - hsum hW0
      induction as with
      | nil => simp
      | cons a as ih =>
        have ih := ih (fun x hx => hW0 x (List.mem_cons_of_mem _ hx)) (fun x hx => hsum x (List.mem_cons_of_mem _ hx))
        simp only [List.map_cons, List.prod_cons, List.length_cons]
        have h0 : 0 ≤ (as.map fun o => ∑ J ∈ range o.N, |o.f J|).prod := List.prod_nonneg fun w hw => by
          obtain ⟨x, hx, rfl⟩ := List.mem_map.1 hw
          exact sum_nonneg fun _ _ => abs_nonneg _
        refine (mul_le_mul (hsum a List.mem_cons_self) ih h0 (mul_nonneg (by norm_num) (hW0 a List.mem_cons_self))).trans (le_of_eq ?_)
        rw [pow_succ]
        ring
    rw [← et, ← et'] at k1
    rw [List.length_map] at k1
    have hε : 0 ≤ (as.map (·.ε)).sum := List.sum_nonneg fun e he => by
      obtain ⟨x, hx, rfl⟩ := List.mem_map.1 he
      exact (h x hx).prec
    have ee : ((as.map fun q => (⟨q.N, q.f, q.g, q.ε, q.W⟩ : Close1)).map (·.ε)).sum = (as.map (·.ε)).sum := by
      rw [List.map_map]; rfl
    have eW : ((as.map fun q => (⟨q.N, q.f, q.g, q.ε, q.W⟩ : Close1)).map (·.W)).prod = (as.map (·.W)).prod := by
      rw [List.map_map]; rfl
    rw [ee, eW] at k1
    obtain ⟨V, hV⟩ : ∃ V, V = (as.map (·.W)).prod * M := ⟨_, rfl⟩
    have hV1 : 0 ≤ V := by rw [hV]; exact mul_nonneg hV0 hM
    rw [← hV] at k1 ⊢
    have k2 := hy.near
    have k3 := abs_sub_le y (tensor (as.map fun d => (d.N, d.f)) c) (tensor (as.map fun d => (d.N, d.g)) c)
    have k4 : (17 / 16 * (P : Rat) / 2 ^ 53 + τ) * (nsum (as.map (·.N)) fun l => M * |(List.zipWith (fun (a : ICol) i => a.f i) as l).prod|) ≤
        (17 / 16 * (P : Rat) / 2 ^ 53 + τ) * (V * (17 / 16)) := by
      refine mul_le_mul_of_nonneg_left ?_ (by positivity)
      rw [hV]
      refine hφ.trans (le_of_eq ?_)
      ring
    have k5 : (1 + 1 / 2 ^ 10 : Rat) ^ as.length * (as.map (·.ε)).sum * V ≤ 17 / 16 * (as.map (·.ε)).sum * V := by
      gcongr
    have k6 : (17 / 16 * (P : Rat) / 2 ^ 53 + τ) * (V * (17 / 16)) ≤ 5 / 4 * (P + as.length) / 2 ^ 53 * V := by
      rw [hτe, show (17 / 16 * (P : Rat) / 2 ^ 53 + 17 / 16 * (as.length : Rat) / 2 ^ 53) * (V * (17 / 16)) =
        289 / 256 * ((P : Rat) + as.length) / 2 ^ 53 * V by ring]
      have h0 : (0 : Rat) ≤ P + as.length := by positivity
      refine mul_le_mul_of_nonneg_right (div_le_div_of_nonneg_right ?_ (by norm_num)) hV1
      linarith
    rw [← hPe, tensorError, add_mul]
    linarith

/-! ## The dimensions -/

/-- One dimension of `integrate`: the dimension of the code, the number of its coefficients, the knots of the spline, the
factor of the coordinate, the length of the domain and the precision of the computed integrals of the B-splines. -/
structure IDim where
  s : Rounded.IntDim
  N : Nat
  desc : Desc Rat
  scale : Rat
  W : Rat
  ε : Rat

/-- The dimensions for which the precision is proved.

* non-uniform B-splines, whose knots are the break points and the repeated end points;
* periodic non-uniform B-splines with at least as many cells as the degree, whose knots are the break points and their exact
  translations by the period, `Q` bounds the break points;
* uniform B-splines with at least as many cells as the degree: the knots are the integers, a cell has the length `k.step`;
* periodic uniform B-splines. -/
inductive IDim.Is (fl : Rat → Rat) : IDim → Prop
  | nonUniform {p n : Nat} {breaks : List Rat} {u : NUBS Rat} {t : Nat → Rat} {sched : List Nat} (hp : 0 < p)
      (hb : GoodBreaks breaks) (hs : breaks.length + 2 * p < 2 ^ 63) (hn : n = breaks.length - 1)
      (hu : NUBS.mk' p false breaks = .ok u) (ht : Monotone t) (hk : NUBS.KnotsOf p false breaks t)
      (hsched : sched.Perm (List.range (n + p))) :
      IDim.Is fl ⟨⟨.nonUniform u, false, sched, seg () 0 (n + p)⟩, n + p, ⟨false, p, n, t⟩, 1, t (p + n) - t p, 4 / 2 ^ 53⟩
  | periodicNonUniform {p n N : Nat} {breaks : List Rat} {u : NUBS Rat} {t : Nat → Rat} {sched : List Nat} {Q : Rat} (hp : 0 < p)
      (hb : WideEnds fl breaks) (hs : breaks.length + 2 * p < 2 ^ 63) (hn : n = breaks.length - 1) (hpn : p ≤ n)
      (hu : Rounded.mkNubs fl p true breaks = .ok u) (ht : Monotone t) (hk : NUBS.KnotsOf p true breaks t)
      (hQ : ∀ x ∈ breaks, |x| ≤ Q) (hQ' : Q ≤ 2 ^ 40 * (t (p + n) - t p))
      (hsched : sched.Perm (List.range n)) (hN : N = n ∨ N = n + p) :
      IDim.Is fl ⟨⟨.nonUniform u, true, sched, seg () 0 N⟩, N, ⟨true, p, n, t⟩, 1, t (p + n) - t p,
        (9 + 5 * (Q / (t (p + n) - t p))) / 2 ^ 53⟩
  | uniform {a b : Rat} {n p : Nat} {k : Knots} {sched : List Nat} (hab : a < b) (hn : 0 < n) (hn' : n < 2 ^ 31)
      (hp : 0 < p) (hp' : p + 1 < 2 ^ 20) (hpn : p ≤ n) (hres : |a| * n ≤ 2 ^ 46 * (b - a)) (hk : k = mkKnots fl a b n p)
      (hsched : sched.Perm (List.range p)) :
      IDim.Is fl ⟨⟨.uniform k, false, sched, seg () 0 (n + p)⟩, n + p, ⟨false, p, n, Spec.uniformKnot 0 n n p⟩, k.step, n * k.step,
        2 * p * ((p + 2) * (p + 18)) / n / 2 ^ 53⟩
  | periodicUniform {a b : Rat} {n p N : Nat} {k : Knots} {sched : List Nat} (hab : a < b) (hn : 0 < n) (hp : 0 < p)
      (hs : n + 1 + 2 * p < 2 ^ 63) (hk : k = mkKnots fl a b n p) (hN : N = n ∨ N = n + p) :
      IDim.Is fl ⟨⟨.uniform k, true, sched, seg () 0 N⟩, N, ⟨true, p, n, Spec.uniformKnot 0 n n p⟩, k.step, n * k.step, 0⟩

/-- The integrals of the basis functions, on the knots of the description times the factor. -/
noncomputable def IDim.w (d : IDim) (i : Nat) : Rat := d.scale * intVal d.desc.per d.desc.p d.desc.n d.desc.t i

theorem knotsOf_eq {p : Nat} {breaks : List Rat} {t t' : Nat → Rat} (hl : 2 ≤ breaks.length)
    (h : NUBS.KnotsOf p false breaks t) (h' : NUBS.KnotsOf p false breaks t') {k : Nat} (hk : k < breaks.length + 2 * p) : t k = t' k := by
  have e0 : t p = t' p := by
    have h1 := h.inner 0 (by omega)
    have h2 := h'.inner 0 (by omega)
    rw [Nat.add_zero] at h1 h2
    rw [h1, h2]
  have e1 : t (p + (breaks.length - 1)) = t' (p + (breaks.length - 1)) := by
    rw [h.inner _ (by omega), h'.inner _ (by omega)]
  by_cases c1 : k ≤ p
  · rw [(h.clamped rfl k c1).1, (h'.clamped rfl k c1).1, e0]
  · by_cases c2 : k < p + breaks.length
    · obtain ⟨i, rfl⟩ : ∃ i, k = p + i := ⟨k - p, by omega⟩
      rw [h.inner i (by omega), h'.inner i (by omega)]
    · obtain ⟨i, rfl⟩ : ∃ i, k = p + (breaks.length - 1) + i := ⟨k - (p + (breaks.length - 1)), by omega⟩
      rw [(h.clamped rfl i (by omega)).2, (h'.clamped rfl i (by omega)).2, e1]

theorem nubsIs_congr {u : NUBS Rat} {p n : Nat} {t t' : Nat → Rat} (h : u.Is p n t) (ht : Monotone t')
    (e : ∀ k, k < n + 1 + 2 * p → t' k = t k) : u.Is p n t' :=
  { h with mono := ht, coord := fun k hk => by rw [h.coord k hk, e k hk] }

/-- The values computed in one dimension, and what is needed of the knots. -/
structure IDim.Computed (fl : Rat → Rat) (d : IDim) (a : ICol) : Prop where
  ok : a.Ok
  values : d.s.values fl = .ok a.v
  size : a.N = d.N
  weights : a.g = d.w
  width : a.W = d.W
  precision : a.ε = d.ε
  ends : Ends d.desc.t d.desc.p d.desc.n
  rep : d.desc.per = true → Rep d.desc.t d.desc.p d.desc.n
  count : if d.desc.per then d.N = d.desc.n ∨ d.N = d.desc.n + d.desc.p else d.N = d.desc.n + d.desc.p

theorem sum_extra {n N : Nat} (hN : n ≤ N) (f : Nat → Rat) : ∑ i ∈ range N, (if i < n then f i else 0) = ∑ i ∈ range n, f i := by
  obtain ⟨d, rfl⟩ : ∃ d, N = n + d := ⟨N - n, by omega⟩
  rw [sum_range_add, sum_eq_zero (s := range d), add_zero]
  · exact sum_congr rfl fun i hi => if_pos (mem_range.1 hi)
  · intro i _; exact if_neg (by omega)

theorem nubs_schedule {m : Nat} {sched : List Nat} (h : sched.Perm (List.range m)) :
    (sched.map (BitVec.ofNat 64)).Perm ((List.range m).map (BitVec.ofNat 64)) := h.map _

theorem IDim.computed_of {d : IDim} {v : Chunk1 Rat} {f g : Nat → Rat} (hN : d.N < 2 ^ 63) (hv : d.s.values fl = .ok v) (hon : v.On d.N)
    (hf : ∀ i, i < d.N → v.data.val i = some (f i)) (hg : ∀ i, i < d.N → d.w i = g i) (hunit : ∑ i ∈ range d.N, |g i| ≤ d.W)
    (hnear : ∑ i ∈ range d.N, |f i - g i| ≤ d.ε * d.W) (h0 : 0 ≤ d.ε) (h1 : d.ε ≤ 1 / 2 ^ 10)
    (ends : Ends d.desc.t d.desc.p d.desc.n) (rep : d.desc.per = true → Rep d.desc.t d.desc.p d.desc.n)
    (count : if d.desc.per then d.N = d.desc.n ∨ d.N = d.desc.n + d.desc.p else d.N = d.desc.n + d.desc.p) :
    ∃ a, IDim.Computed fl d a := by
  refine ⟨⟨v, d.N, f, d.w, d.W, d.ε⟩, ⟨⟨hN, hon, hf⟩, ?_, ?_, h0, h1⟩, hv, rfl, rfl, rfl, rfl, ends, rep, count⟩
  · refine le_of_eq_of_le (sum_congr rfl fun i hi => ?_) hunit
    show |d.w i| = |g i|
    rw [hg i (mem_range.1 hi)]
  · refine le_of_eq_of_le (sum_congr rfl fun i hi => ?_) hnear
    show |f i - d.w i| = |f i - g i|
    rw [hg i (mem_range.1 hi)]

theorem IDim.Is.nonUniform_computed (hfl : RoundsAll fl) {p n : Nat} {breaks : List Rat} {u : NUBS Rat} {t : Nat → Rat}
    {sched : List Nat} (hp : 0 < p)
    (hb : GoodBreaks breaks) (hs : breaks.length + 2 * p < 2 ^ 63) (hn : n = breaks.length - 1)
    (hu : NUBS.mk' p false breaks = .ok u) (ht : Monotone t) (hk : NUBS.KnotsOf p false breaks t)
    (hsched : sched.Perm (List.range (n + p))) :
    ∃ a, IDim.Computed fl ⟨⟨.nonUniform u, false, sched, seg () 0 (n + p)⟩, n + p, ⟨false, p, n, t⟩, 1, t (p + n) - t p, 4 / 2 ^ 53⟩ a := by
  have h2 := hb.two
  obtain ⟨u', t', e, hper, hu', hk'⟩ := NUBS.mk'_is hp false hb.two hs hb.sorted hb.lt
  rw [hu] at e
  obtain rfl := Res.ok.inj e
  rw [← hn] at hu'
  have hI : u.Is p n t := nubsIs_congr hu' ht fun k hk0 => knotsOf_eq h2 hk hk' (by omega)
  obtain ⟨g0, g1⟩ := goodEnds hb hk
  rw [← hn] at g1
  have hcl := hk.clamped rfl
  rw [← hn] at hcl
  have hE : Ends t p n := ⟨ht, by omega, g0, g1⟩
  obtain ⟨c, e1, h1, h3, -⟩ := nubs_integralsR (fl := fl) hI (N := n + p) (by simp [hper])
    (sched := sched.map (BitVec.ofNat 64)) (by simpa [hper] using nubs_schedule hsched)
    (vals := ⟨seg () 0 (n + p), Arr.uninit (n + p)⟩) ⟨rfl, rfl⟩
  simp only [hper, Bool.false_eq_true, if_false] at h3
  have hw : ∀ i, i < n + p → total t p n i = (t (i + p + 1) - t i) / ((p + 1 : Nat) : Rat) := fun i hi => total_clamped hE hcl hi
  have hw0 : ∀ i, 0 ≤ (t (i + p + 1) - t i) / ((p + 1 : Nat) : Rat) := fun i => by
    have : 0 ≤ t (i + p + 1) - t i := sub_nonneg.2 (ht (by omega))
    positivity
  have hsum : ∑ i ∈ range (n + p), (t (i + p + 1) - t i) / ((p + 1 : Nat) : Rat) = t (p + n) - t p := by
    refine width_sum t p _ fun k hk => ?_
    rw [(hcl k hk).1, Nat.add_comm n p, (hcl k hk).2]
  refine IDim.computed_of (v := c) (f := widthR fl t p) (g := fun i => (t (i + p + 1) - t i) / ((p + 1 : Nat) : Rat))
    (show n + p < 2 ^ 63 by omega) ?_ h1 h3 (fun i hi => ?_) ?_ ?_ (by norm_num) (by norm_num) hE (by simp) (by simp)
  · simp only [IntDim.values]
    rw [seg_size (by omega), Res.ok_bind, Nat.sub_zero, BitVec.toNat_ofNat, Nat.mod_eq_of_lt (by omega)]
    exact e1
  · rw [IDim.w]
    simp only [intVal, Bool.false_eq_true, if_false]
    rw [one_mul, hw i hi]
  · dsimp only
    refine (le_of_eq (sum_congr rfl fun i hi => ?_)).trans hsum.le
    rw [abs_of_nonneg (hw0 i)]
  · dsimp only
    rw [← hsum, mul_sum]
    exact sum_le_sum fun i hi => widthR_near hfl ht i

theorem uniform_sum {n p : Nat} (hn : 0 < n) : ∑ i ∈ range (n + p), total (Spec.uniformKnot (0 : Rat) n n p) p n i = n := by
  have hn0 : (0 : Rat) < n := by exact_mod_cast hn
  have h1n : ((n : Rat) - 0) / n = 1 := by rw [sub_zero, div_self hn0.ne']
  have := Spec.total_periodic (uniform_ends (p := p) hn0 hn) uniform_rep (fun _ => True) (fun _ => Iff.rfl)
  simp only [if_true] at this
  rw [this, Finset.sum_congr rfl (fun i _ => uniform_width i), Finset.sum_const, Finset.card_range,
    nsmul_eq_mul, h1n, mul_one]

theorem IDim.Is.uniform_computed (hfl : RoundsAll fl) {a b : Rat} {n p : Nat} {k : Knots} {sched : List Nat} (hab : a < b) (hn : 0 < n)
    (hn' : n < 2 ^ 31) (hp : 0 < p) (hp' : p + 1 < 2 ^ 20) (hpn : p ≤ n) (hres : |a| * n ≤ 2 ^ 46 * (b - a))
    (hk : k = mkKnots fl a b n p) (hsched : sched.Perm (List.range p)) :
    ∃ c, IDim.Computed fl ⟨⟨.uniform k, false, sched, seg () 0 (n + p)⟩, n + p, ⟨false, p, n, Spec.uniformKnot 0 n n p⟩, k.step, n * k.step,
        2 * p * ((p + 2) * (p + 18)) / n / 2 ^ 53⟩ c := by
  have hn0 : (0 : Rat) < n := by exact_mod_cast hn
  have h1n : ((n : Rat) - 0) / n = 1 := by rw [sub_zero, div_self hn0.ne']
  have hE := uniform_ends (p := p) hn0 hn
  obtain ⟨ch, v, I, e1, h1, h2, -⟩ := C69_uniform hfl hab hn hn' hp hp' hpn hres hk sched hsched
    ⟨seg () 0 (n + p), Arr.uninit (n + p)⟩ ⟨rfl, rfl⟩
  have hlast : Spec.uniformKnot (0 : Rat) n n p (p + n) ≤ n := by
    rw [uniformKnot_step p n, uniformKnot_first, h1n, zero_add, mul_one]
  have hI : ∀ i, i < n + p → I i = total (Spec.uniformKnot (0 : Rat) n n p) p n i := fun i hi =>
    (h2 i hi).2.1.unique hE.mono hlast (isIntegral_total hE _ i)
  obtain ⟨hstep, -⟩ := knots_bounds hfl hab hn hn' (show p ≤ 2 ^ 20 by omega) hres
  rw [← hk] at hstep
  obtain ⟨ε, hε⟩ : ∃ ε : Rat, ε = (p + 2) * (p + 18) / 2 ^ 53 * k.step := ⟨_, rfl⟩
  have hpr : (p : Rat) ≤ 1048574 := by
    have : p ≤ 1048574 := by omega
    exact_mod_cast this
  have hpn' : (p : Rat) ≤ n := by exact_mod_cast hpn
  refine IDim.computed_of (v := ch) (f := v) (g := fun i => k.step * total (Spec.uniformKnot (0 : Rat) n n p) p n i)
    (show n + p < 2 ^ 63 by omega) ?_ h1 (fun i hi => (h2 i hi).1) (fun i hi => ?_) ?_ ?_ (by positivity) ?_ hE (by simp) (by simp)
  · simp only [IntDim.values]
    rw [seg_size (by omega), Res.ok_bind, Nat.sub_zero, BitVec.toNat_ofNat, Nat.mod_eq_of_lt (by omega)]
    exact e1
  · rw [IDim.w]
    simp only [intVal, Bool.false_eq_true, if_false]
  · dsimp only
    rw [sum_congr rfl fun i hi => abs_of_nonneg (mul_nonneg hstep.le (uniform_total_nonneg hn hpn (mem_range.1 hi))), ← mul_sum,
      uniform_sum hn, mul_comm]
  · dsimp only
    have e : 2 * (p : Rat) * ((p + 2) * (p + 18)) / n / 2 ^ 53 * (n * k.step) = 2 * p * ε := by
      rw [hε]
      field_simp
    rw [e, ← edge_count hpn ε]
    refine sum_le_sum fun i hi => ?_
    rw [← hI i (mem_range.1 hi), hε]
    exact (h2 i (mem_range.1 hi)).2.2
  · dsimp only
    rw [div_le_iff₀ (by norm_num), div_le_iff₀ hn0]
    have q1 : ((p : Rat) + 2) * (p + 18) ≤ 1048576 * 1048592 := by
      have : (0 : Rat) ≤ p := Nat.cast_nonneg p
      exact mul_le_mul (by linarith) (by linarith) (by linarith) (by norm_num)
    calc 2 * (p : Rat) * ((p + 2) * (p + 18)) ≤ 2 * n * (1048576 * 1048592) := by gcongr
      _ ≤ 1 / 2 ^ 10 * 2 ^ 53 * n := by norm_num; linarith

theorem step_nonneg (hfl : RoundsAll fl) {a b : Rat} (hab : a < b) (n p : Nat) : 0 ≤ (mkKnots fl a b n p).step := by
  have h0 : fl 0 = 0 := by simpa using hfl.exact 0 (by norm_num)
  have h1 : 0 ≤ fl (b - a) := by
    have := hfl.mono 0 (b - a) (by linarith)
    rwa [h0] at this
  have := hfl.mono 0 (fl (b - a) / n) (by positivity)
  rwa [h0] at this

theorem IDim.Is.periodicUniform_computed (hfl : RoundsAll fl) {a b : Rat} {n p N : Nat} {k : Knots} {sched : List Nat} (hab : a < b)
    (hn : 0 < n) (hp : 0 < p) (hs : n + 1 + 2 * p < 2 ^ 63) (hk : k = mkKnots fl a b n p) (hN : N = n ∨ N = n + p) :
    ∃ c, IDim.Computed fl ⟨⟨.uniform k, true, sched, seg () 0 N⟩, N, ⟨true, p, n, Spec.uniformKnot 0 n n p⟩, k.step, n * k.step, 0⟩ c := by
  have hn0 : (0 : Rat) < n := by exact_mod_cast hn
  have h1n : ((n : Rat) - 0) / n = 1 := by rw [sub_zero, div_self hn0.ne']
  have hE := uniform_ends (p := p) hn0 hn
  have hstep : 0 ≤ k.step := by rw [hk]; exact step_nonneg hfl hab n p
  obtain ⟨ch, J, e1, h1, h2, h3, h4⟩ := C69_uniform_periodic (fl := fl) hn hp hs (k := k) (by rw [hk]; rfl) (by rw [hk]; rfl) sched N hN
    ⟨seg () 0 N, Arr.uninit N⟩ ⟨rfl, rfl⟩
  have hlast : Spec.uniformKnot (0 : Rat) n n p (p + n) ≤ n := by
    rw [uniformKnot_step p n, uniformKnot_first, h1n, zero_add, mul_one]
  have hJ : ∀ i, i < n → (∑ j ∈ Finset.range (n + p), if j % n = i then J j else 0) = 1 := by
    intro i hi
    rw [sum_congr rfl fun j hj => by
      rw [(h2 j (mem_range.1 hj)).unique hE.mono hlast (isIntegral_total hE _ j)]]
    rw [Spec.total_periodic hE uniform_rep (fun j => j % n = i) (fun j => by simp), Finset.sum_eq_single i]
    · rw [if_pos (Nat.mod_eq_of_lt hi), uniform_width, h1n]
    · intro j hj hne
      rw [if_neg (by rw [Nat.mod_eq_of_lt (Finset.mem_range.1 hj)]; exact hne)]
    · intro hx; exact absurd (Finset.mem_range.2 hi) hx
  refine IDim.computed_of (v := ch) (f := fun i => if i < n then k.step else 0) (g := fun i => if i < n then k.step else 0)
    (show N < 2 ^ 63 by omega) ?_ h1 (fun i hi => ?_) (fun i hi => ?_) ?_ ?_ (le_refl _) (by norm_num) hE (fun _ => uniform_rep)
    (by simpa using hN)
  · simp only [IntDim.values]
    rw [seg_size (by omega), Res.ok_bind, Nat.sub_zero, BitVec.toNat_ofNat, Nat.mod_eq_of_lt (by omega)]
    exact e1
  · dsimp only at hi ⊢
    split
    · rw [h3 i ‹_›, hJ i ‹_›, mul_one]
    · exact h4 i (by omega) hi
  · rw [IDim.w]
    simp only [intVal, if_true]
    split
    · rw [uniform_width, h1n, mul_one]
    · exact mul_zero _
  · dsimp only
    rw [sum_congr rfl fun i _ => show |if i < n then k.step else 0| = if i < n then k.step else 0 by
      rw [abs_of_nonneg]; split <;> [exact hstep; exact le_refl _], sum_extra (by omega), sum_const, card_range, nsmul_eq_mul]
  · dsimp only
    simp

theorem IDim.Is.periodicNonUniform_computed (hfl : RoundsAll fl) {p n N : Nat} {breaks : List Rat} {u : NUBS Rat} {t : Nat → Rat}
    {sched : List Nat} {Q : Rat} (hp : 0 < p)
    (hb : WideEnds fl breaks) (hs : breaks.length + 2 * p < 2 ^ 63) (hn : n = breaks.length - 1) (hpn : p ≤ n)
    (hu : Rounded.mkNubs fl p true breaks = .ok u) (ht : Monotone t) (hk : NUBS.KnotsOf p true breaks t)
    (hQ : ∀ x ∈ breaks, |x| ≤ Q) (hQ' : Q ≤ 2 ^ 40 * (t (p + n) - t p))
    (hsched : sched.Perm (List.range n)) (hN : N = n ∨ N = n + p) :
    ∃ c, IDim.Computed fl ⟨⟨.nonUniform u, true, sched, seg () 0 N⟩, N, ⟨true, p, n, t⟩, 1, t (p + n) - t p,
        (9 + 5 * (Q / (t (p + n) - t p))) / 2 ^ 53⟩ c := by
  have h2 := hb.two
  obtain ⟨u', t', e, hper, hu', hk', g0', g1', hnear⟩ := mkNubs_is hfl hp hs hb
  rw [hu] at e
  obtain rfl := Res.ok.inj e
  rw [← hn] at hu' hnear g1'
  obtain ⟨g0, g1⟩ := goodEnds hb.toGoodBreaks hk
  rw [← hn] at g1
  have hE : Ends t p n := ⟨ht, by omega, g0, g1⟩
  have hR : Rep t p n := by
    have := hk.periodic rfl
    rwa [← hn] at this
  have hin : ∀ k, p ≤ k → k ≤ p + n → t' k = t k := fun k h1 h2 => by
    obtain ⟨i, rfl⟩ : ∃ i, k = p + i := ⟨k - p, by omega⟩
    rw [hk.inner i (by omega), hk' i (by omega)]
  have hQin : ∀ k, p ≤ k → k ≤ p + n → |t k| ≤ Q := fun k h1 h2 => by
    obtain ⟨i, rfl⟩ : ∃ i, k = p + i := ⟨k - p, by omega⟩
    rw [hk.inner i (by omega)]
    exact hQ _ (List.getElem_mem _)
  obtain ⟨L, hL⟩ : ∃ L, L = t (p + n) - t p := ⟨_, rfl⟩
  have hL0 : 0 < L := by
    rw [hL, sub_pos]
    exact g0.trans_le (ht (by omega))
  have hQ0 : 0 ≤ Q := (abs_nonneg _).trans (hQin p (le_refl _) (by omega))
  rw [← hL] at hQ' ⊢
  obtain ⟨η, hη⟩ : ∃ η, η = 33 / 8 * (Q + L) / 2 ^ 53 := ⟨_, rfl⟩
  have hη0 : 0 ≤ η := by rw [hη]; positivity
  -- the knots before the domain
  have hlow : ∀ k, k < p → |t' k - t k| ≤ η := fun k hk0 => by
    have a1 := hnear k (by omega)
    rw [hin (k + n) (by omega) (by omega), hin (p + n) (by omega) (by omega), hin p (by omega) (by omega), hR k (by omega), ← hL,
      show t k + L - (t' k + L) = t k - t' k by ring, abs_sub_comm] at a1
    have a2 : |t k| ≤ Q + L := by
      have b1 := hQin (k + n) (by omega) (by omega)
      rw [hR k (by omega), ← hL] at b1
      have := abs_sub_abs_le_abs_sub (t k) (-L)
      rw [sub_neg_eq_add, abs_neg, abs_of_pos hL0] at this
      linarith
    have a3 : |t k + L| ≤ Q := by
      have b1 := hQin (k + n) (by omega) (by omega)
      rwa [hR k (by omega), ← hL] at b1
    have a4 := abs_sub_abs_le_abs_sub (t' k) (t k)
    rw [hη]
    norm_num at a1 ⊢
    linarith
  -- the widths
  have hq : (0 : Rat) < ((p + 1 : Nat) : Rat) := by positivity
  have hw0 : ∀ i, 0 ≤ (t (i + p + 1) - t i) / ((p + 1 : Nat) : Rat) := fun i => by
    have : 0 ≤ t (i + p + 1) - t i := sub_nonneg.2 (ht (by omega))
    positivity
  have hsum : ∑ i ∈ range n, (t (i + p + 1) - t i) / ((p + 1 : Nat) : Rat) = L := by
    refine width_sum t p _ fun k hk => ?_
    rw [Nat.add_comm n k, hR k (by omega), ← hL]
    ring
  have hdiff : ∑ i ∈ range n, |(t' (i + p + 1) - t' i) / ((p + 1 : Nat) : Rat) - (t (i + p + 1) - t i) / ((p + 1 : Nat) : Rat)| ≤ η := by
    have b1 : ∀ i ∈ range n, |(t' (i + p + 1) - t' i) / ((p + 1 : Nat) : Rat) - (t (i + p + 1) - t i) / ((p + 1 : Nat) : Rat)| ≤
        if i < p then η / ((p + 1 : Nat) : Rat) else 0 := fun i hi => by
      rw [mem_range] at hi
      rw [hin (i + p + 1) (by omega) (by omega), ← sub_div, abs_div, abs_of_pos hq,
        show t (i + p + 1) - t' i - (t (i + p + 1) - t i) = -(t' i - t i) by ring, abs_neg]
      split
      · exact div_le_div_of_nonneg_right (hlow i ‹_›) hq.le
      · rw [hin i (by omega) (by omega), sub_self, abs_zero, zero_div]
    refine (sum_le_sum b1).trans ?_
    rw [sum_extra hpn, sum_const, card_range, nsmul_eq_mul, mul_div_assoc', div_le_iff₀ hq, mul_comm]
    refine mul_le_mul_of_nonneg_left ?_ hη0
    push_cast
    linarith
  obtain ⟨ch, e1, h1, h3, h4⟩ := nubs_integralsR (fl := fl) hu' (N := N) (by simpa [hper] using hN)
    (sched := sched.map (BitVec.ofNat 64)) (by simpa [hper] using nubs_schedule hsched)
    (vals := ⟨seg () 0 N, Arr.uninit N⟩) ⟨rfl, rfl⟩
  simp only [hper, if_true] at h3
  refine IDim.computed_of (v := ch) (f := fun i => if i < n then widthR fl t' p i else 0)
    (g := fun i => if i < n then (t (i + p + 1) - t i) / ((p + 1 : Nat) : Rat) else 0)
    (show N < 2 ^ 63 by omega) ?_ h1 (fun i hi => ?_) (fun i hi => ?_) ?_ ?_ (by positivity) ?_ hE (fun _ => hR) (by simpa using hN)
  · simp only [IntDim.values]
    rw [seg_size (by omega), Res.ok_bind, Nat.sub_zero, BitVec.toNat_ofNat, Nat.mod_eq_of_lt (by omega)]
    exact e1
  · dsimp only at hi ⊢
    split
    · exact h3 i ‹_›
    · exact h4 i hper (by omega) hi
  · rw [IDim.w]
    simp only [intVal, if_true]
    rw [one_mul]
  · dsimp only
    rw [sum_congr rfl fun i _ => show |if i < n then (t (i + p + 1) - t i) / ((p + 1 : Nat) : Rat) else 0| =
      if i < n then (t (i + p + 1) - t i) / ((p + 1 : Nat) : Rat) else 0 by
        rw [abs_of_nonneg]; split <;> [exact hw0 i; exact le_refl _], sum_extra (by omega), hsum]
  · dsimp only
    rw [sum_congr rfl fun i _ => show |(if i < n then widthR fl t' p i else 0) -
        if i < n then (t (i + p + 1) - t i) / ((p + 1 : Nat) : Rat) else 0| =
      if i < n then |widthR fl t' p i - (t (i + p + 1) - t i) / ((p + 1 : Nat) : Rat)| else 0 by
        split <;> simp, sum_extra (by omega)]
    have b1 : ∀ i ∈ range n, |widthR fl t' p i - (t (i + p + 1) - t i) / ((p + 1 : Nat) : Rat)| ≤
        4 / 2 ^ 53 * ((t (i + p + 1) - t i) / ((p + 1 : Nat) : Rat)) + (4 / 2 ^ 53 + 1) *
          |(t' (i + p + 1) - t' i) / ((p + 1 : Nat) : Rat) - (t (i + p + 1) - t i) / ((p + 1 : Nat) : Rat)| := fun i _ => by
      have c1 := widthR_near (p := p) hfl hu'.mono i
      have c2 := abs_sub_le (widthR fl t' p i) ((t' (i + p + 1) - t' i) / ((p + 1 : Nat) : Rat)) ((t (i + p + 1) - t i) / ((p + 1 : Nat) : Rat))
      have c3 := le_abs_self ((t' (i + p + 1) - t' i) / ((p + 1 : Nat) : Rat) - (t (i + p + 1) - t i) / ((p + 1 : Nat) : Rat))
      norm_num only at c1 c2 c3 ⊢
      linarith
    refine (sum_le_sum b1).trans ?_
    rw [sum_add_distrib, ← mul_sum, ← mul_sum, hsum]
    have c4 := mul_le_mul_of_nonneg_left hdiff (show (0 : Rat) ≤ 4 / 2 ^ 53 + 1 by norm_num)
    have c5 : (9 + 5 * (Q / L)) / 2 ^ 53 * L = (9 * L + 5 * Q) / 2 ^ 53 := by field_simp
    rw [c5]
    rw [hη] at c4
    norm_num only at c4 ⊢
    linarith
  · dsimp only
    have : Q / L ≤ 2 ^ 40 := by rw [div_le_iff₀ hL0]; exact hQ'
    norm_num at this ⊢
    linarith

theorem IDim.Is.computed (hfl : RoundsAll fl) {d : IDim} (h : d.Is fl) : ∃ a, IDim.Computed fl d a := by
  cases h with
  | nonUniform hp hb hs hn hu ht hk hsched => exact IDim.Is.nonUniform_computed hfl hp hb hs hn hu ht hk hsched
  | periodicNonUniform hp hb hs hn hpn hu ht hk hQ hQ' hsched hN =>
    exact IDim.Is.periodicNonUniform_computed hfl hp hb hs hn hpn hu ht hk hQ hQ' hsched hN
  | uniform hab hn hn' hp hp' hpn hres hk hsched => exact IDim.Is.uniform_computed hfl hab hn hn' hp hp' hpn hres hk hsched
  | periodicUniform hab hn hp hs hk hN => exact IDim.Is.periodicUniform_computed hfl hab hn hp hs hk hN

/-! ## Several dimensions -/

theorem idims_list (ds : List IDim) (h : ∀ d ∈ ds, ∃ a, IDim.Computed fl d a) :
    ∃ qs : List (IDim × ICol), ds = qs.map (·.1) ∧ ∀ q ∈ qs, IDim.Computed fl q.1 q.2 := by
  induction ds with
  | nil => exact ⟨[], rfl, by simp⟩
  | cons d ds ih =>
    obtain ⟨a, ha⟩ := h d List.mem_cons_self
    obtain ⟨qs, rfl, hq⟩ := ih fun x hx => h x (List.mem_cons_of_mem _ hx)
    refine ⟨(d, a) :: qs, rfl, fun q hq' => ?_⟩
    rcases List.mem_cons.1 hq' with rfl | h1
    · exact ha
    · exact hq q h1

theorem tensor_scale (ds : List IDim) (g : IDim → Nat → Rat) (c : List Nat → Rat) :
    tensor (ds.map fun d => (d.N, fun i => d.scale * g d i)) c = (ds.map (·.scale)).prod * tensor (ds.map fun d => (d.N, g d)) c := by
  induction ds generalizing c with
  | nil => simp [tensor]
  | cons d ds ih =>
    simp only [List.map_cons, tensor, List.prod_cons]
    rw [mul_sum]
    refine sum_congr rfl fun i _ => ?_
    rw [ih]
    ring

/-- In any number of dimensions, on uniform and non-uniform B-splines, periodic or not, whatever the rounding, the order of
execution and the order of the products: for each element of the batch domain, `integrate` writes the iterated integral of the
spline up to a small multiple of the largest coefficient times the volume of the domain.
Missing: uniform B-splines that are not periodic with fewer cells than the degree, for which `ddc::integrals` is wrong
(`C36_few_cells`), and periodic non-uniform B-splines with fewer cells than the degree. -/
theorem C73_integrate_partial (hfl : RoundsAll fl) (F : Fold) {ds : List IDim} (hne : ds ≠ []) (hlen : ds.length ≤ 40)
    (h : ∀ d ∈ ds, d.Is fl) (hP : (ds.map (·.N)).prod ≤ 2 ^ 40) {σ : Sched} (hσ : σ.Valid) {coef : Nat → Coefs Rat} {out : Mat Rat}
    (hr : out.rows = 1) {c : Nat → List Nat → Rat} (hc : ∀ j, j < out.cols → Holds (ds.map (·.N)) (coef j) (c j))
    (hper : ∀ j, j < out.cols → PeriodicCoefs (ds.map (·.desc)) (c j)) {M : Nat → Rat} (hM : ∀ j, 0 ≤ M j)
    (hcM : ∀ j, j < out.cols → ∀ l, List.Forall₂ (· < ·) l (ds.map (·.N)) → |c j l| ≤ M j) :
    ∃ out', Rounded.integrateN fl F σ (ds.map (·.s)) coef out = .ok out' ∧ out'.rows = 1 ∧ out'.cols = out.cols ∧
      ∀ j, j < out.cols → ∃ I,
        IsIterated (ds.map (·.desc)) (fun x => tensor (List.zipWith Desc.weights (ds.map (·.desc)) x) (c j)) I ∧
        |out'.val 0 j - (ds.map (·.scale)).prod * I| ≤
          tensorError (ds.map (·.N)).prod ds.length (ds.map (·.ε)).sum * ((ds.map (·.W)).prod * M j) := by
  obtain ⟨qs, rfl, hq⟩ := idims_list ds fun d hd => (h d hd).computed hfl
  clear h
  have eN : (qs.map (·.2)).map (·.N) = (qs.map (·.1)).map (·.N) := by
    rw [List.map_map, List.map_map]
    exact List.map_congr_left fun q hq' => (hq q hq').size
  have eε : (qs.map (·.2)).map (·.ε) = (qs.map (·.1)).map (·.ε) := by
    rw [List.map_map, List.map_map]
    exact List.map_congr_left fun q hq' => (hq q hq').precision
  have eW : (qs.map (·.2)).map (·.W) = (qs.map (·.1)).map (·.W) := by
    rw [List.map_map, List.map_map]
    exact List.map_congr_left fun q hq' => (hq q hq').width
  have eg : (qs.map (·.2)).map (fun a => (a.N, a.g)) = (qs.map (·.1)).map fun d => (d.N, d.w) := by
    rw [List.map_map, List.map_map]
    exact List.map_congr_left fun q hq' => by simp only [Function.comp_apply, (hq q hq').size, (hq q hq').weights]
  have hok : ∀ a ∈ qs.map (·.2), a.Ok := fun a ha => by
    obtain ⟨q, hq', rfl⟩ := List.mem_map.1 ha
    exact (hq q hq').ok
  have ev : ((qs.map (·.1)).map (·.s)).mapM (IntDim.values fl) = .ok ((qs.map (·.2)).map (·.v)) := by
    clear * - hq
    induction qs with
    | nil => rfl
    | cons q qs ih =>
      simp only [List.map_cons, List.mapM_cons]
      rw [(hq q List.mem_cons_self).values, Res.ok_bind, ih fun x hx => hq x (List.mem_cons_of_mem _ hx), Res.ok_bind]
      rfl
  have key : ∀ j, ∃ y, j < out.cols → Rounded.intLoop fl F (coef j) ((qs.map (·.2)).map (·.v)) [] 0 = .ok y ∧
      |y - tensor ((qs.map (·.1)).map fun d => (d.N, d.w)) (c j)| ≤
        tensorError ((qs.map (·.1)).map (·.N)).prod (qs.map (·.1)).length ((qs.map (·.1)).map (·.ε)).sum *
          (((qs.map (·.1)).map (·.W)).prod * M j) := by
    intro j
    by_cases hj : j < out.cols
    · obtain ⟨y, e, h1⟩ := intLoop_near hfl F (as := qs.map (·.2)) (by simpa using hne) (by simpa using hlen) hok (by rw [eN]; exact hP)
        (coef := coef j) (c := c j) (by rw [eN]; exact hc j hj) (hM j) (by rw [eN]; exact hcM j hj)
      rw [eN, eε, eW, eg, List.length_map, ← List.length_map (f := fun q : IDim × ICol => q.1)] at h1
      exact ⟨y, fun _ => ⟨e, h1⟩⟩
    · exact ⟨0, fun h => absurd h hj⟩
  choose Y hY using key
  obtain ⟨out', e', r, k, hval⟩ := colLoop_ok hσ (R := 1) (C := out.cols)
    (f := fun j out => do
      let out ← out.wr 0 j 0
      let y ← out.rd 0 j
      let y ← Rounded.intLoop fl F (coef j) ((qs.map (·.2)).map (·.v)) [] y
      out.wr 0 j y)
    (fun j col r => if r = 0 then Y j else col r) (fun b j hb hb' hj => by
      rw [Mat.wr_ok (by omega) (by omega), Res.ok_bind, Mat.rd_ok (by simp [Mat.set]; omega) (by simp [Mat.set]; omega),
        Res.ok_bind]
      have h0 : (b.set 0 j 0).val 0 j = 0 := by simp [Mat.set]
      rw [h0, (hY j hj).1, Res.ok_bind, Mat.wr_ok (by simp [Mat.set]; omega) (by simp [Mat.set]; omega)]
      simp only [Mat.set]
      congr 1
      rw [hb, hb']
      congr 1
      funext r c'
      by_cases c1 : c' = j
      · subst c1
        by_cases c2 : r = 0
        · simp [c2]
        · simp [c2]
      · simp [c1]) out hr rfl
  refine ⟨out', by rw [Rounded.integrateN, ev, Res.ok_bind, e'], r, k, fun j hj => ⟨_, isIterated_tensor _ (fun d hd => ?_) (c j), ?_⟩⟩
  · obtain ⟨d', hd', rfl⟩ := List.mem_map.1 hd
    obtain ⟨q, hq', rfl⟩ := List.mem_map.1 hd'
    exact (hq q hq').ends
  · rw [hval 0 j hj, if_pos rfl]
    have h1 := (hY j hj).2
    have e1 : tensor ((qs.map (·.1)).map fun d => (d.N, d.w)) (c j) = ((qs.map (·.1)).map (·.scale)).prod *
        tensor ((qs.map (·.1)).map fun d => (d.N, intVal d.desc.per d.desc.p d.desc.n d.desc.t)) (c j) :=
      tensor_scale (qs.map fun q : IDim × ICol => q.1) (fun d => intVal d.desc.per d.desc.p d.desc.n d.desc.t) (c j)
    have ez : List.zip ((qs.map (·.1)).map (·.desc)) ((qs.map (·.1)).map (·.N)) = (qs.map (·.1)).map fun d => (d.desc, d.N) := by
      rw [List.zip_map']
    have e2 := tensor_ints (ds := (qs.map (·.1)).map (·.desc)) (Ns := (qs.map (·.1)).map (·.N)) (by simp)
      (fun d hd => by
        obtain ⟨d', hd', rfl⟩ := List.mem_map.1 hd
        obtain ⟨q, hq', rfl⟩ := List.mem_map.1 hd'
        exact (hq q hq').ends)
      (fun d hd => by
        obtain ⟨d', hd', rfl⟩ := List.mem_map.1 hd
        obtain ⟨q, hq', rfl⟩ := List.mem_map.1 hd'
        exact (hq q hq').rep)
      (fun dN hd => by
        rw [ez] at hd
        obtain ⟨d', hd', rfl⟩ := List.mem_map.1 hd
        obtain ⟨q, hq', rfl⟩ := List.mem_map.1 hd'
        exact (hq q hq').count) (hper j hj)
    rw [ez, List.map_map] at e2
    rw [e1, show ((qs.map (·.1)).map fun d => (d.N, intVal d.desc.per d.desc.p d.desc.n d.desc.t)) =
      (qs.map (·.1)).map ((fun dN : Desc Rat × Nat => (dN.2, intVal dN.1.per dN.1.p dN.1.n dN.1.t)) ∘ fun d => (d.desc, d.N)) from rfl,
      e2] at h1
    exact h1

/-- Three dimensions: quadratic splines on non-uniform cells, periodic cubic splines on uniform cells, cubic splines on uniform
cells; the error is less than `2⁻⁴¹`. -/
example (F : Fold) {σ : Sched} (hσ : σ.Valid) (c : Nat → List Nat → Rat) (hc : ∀ j l, |c j l| ≤ 1)
    (hper : ∀ j x i l, i < 3 → c j (x :: (4 + i) :: l) = c j (x :: i :: l)) :
    ∃ u t, NUBS.mk' 2 false [(0 : Rat), 1, 3] = .ok u ∧ ∃ out',
      Rounded.integrateN round53 F σ [⟨.nonUniform u, false, [3, 0, 1, 2], seg () 0 4⟩,
        ⟨.uniform (mkKnots round53 0 1 4 3), true, [], seg () 0 4⟩, ⟨.uniform (mkKnots round53 0 1 3 3), false, [2, 0, 1], seg () 0 6⟩]
        (fun j idx => .ok (c j (idx.map BitVec.toNat))) ⟨1, 10, fun _ _ => 7⟩ = .ok out' ∧ ∀ j, j < 10 → ∃ I,
          IsIterated [⟨false, 2, 2, t⟩, ⟨true, 3, 4, Spec.uniformKnot 0 4 4 3⟩, ⟨false, 3, 3, Spec.uniformKnot 0 3 3 3⟩]
            (fun x => tensor (List.zipWith Desc.weights
              [⟨false, 2, 2, t⟩, ⟨true, 3, 4, Spec.uniformKnot 0 4 4 3⟩, ⟨false, 3, 3, Spec.uniformKnot 0 3 3 3⟩] x) (c j)) I ∧
          |out'.val 0 j - round53 (1 / 4) * (round53 (1 / 3) * I)| ≤ 1 / 2 ^ 41 := by
  have hgb : GoodBreaks [(0 : Rat), 1, 3] := ⟨by decide, (isSorted_iff _).1 (by decide +kernel), by decide +kernel, by decide +kernel⟩
  obtain ⟨u, t, eu, -, hu, hk⟩ := NUBS.mk'_is (p := 2) (by norm_num) false hgb.two (by simp) hgb.sorted hgb.lt
  have hlen : t 4 - t 2 = 3 := by
    have h1 := hk.inner 0 (by simp)
    have h2 := hk.inner 2 (by simp)
    simp at h1 h2
    rw [h1, h2]
    norm_num
  obtain ⟨out', e, -, -, h⟩ := C73_integrate_partial round53_all F
    (ds := [⟨⟨.nonUniform u, false, [3, 0, 1, 2], seg () 0 4⟩, 4, ⟨false, 2, 2, t⟩, 1, t 4 - t 2, 4 / 2 ^ 53⟩,
      ⟨⟨.uniform (mkKnots round53 0 1 4 3), true, [], seg () 0 4⟩, 4, ⟨true, 3, 4, Spec.uniformKnot 0 (4 : Nat) 4 3⟩,
        (mkKnots round53 0 1 4 3).step, (4 : Nat) * (mkKnots round53 0 1 4 3).step, 0⟩,
      ⟨⟨.uniform (mkKnots round53 0 1 3 3), false, [2, 0, 1], seg () 0 6⟩, 6, ⟨false, 3, 3, Spec.uniformKnot 0 (3 : Nat) 3 3⟩,
        (mkKnots round53 0 1 3 3).step, (3 : Nat) * (mkKnots round53 0 1 3 3).step,
        2 * (3 : Nat) * (((3 : Nat) + 2) * ((3 : Nat) + 18)) / (3 : Nat) / 2 ^ 53⟩])
    (by simp) (by simp) (fun d hd => by
      simp only [List.mem_cons, List.not_mem_nil, or_false] at hd
      rcases hd with rfl | rfl | rfl
      · exact .nonUniform (p := 2) (n := 2) (breaks := [(0 : Rat), 1, 3]) (by norm_num) hgb (by simp) rfl eu hu.mono hk (by decide)
      · exact .periodicUniform (a := 0) (b := 1) (n := 4) (p := 3) (by norm_num) (by norm_num) (by norm_num) (by norm_num) rfl (.inl rfl)
      · exact .uniform (a := 0) (b := 1) (n := 3) (p := 3) (by norm_num) (by norm_num) (by norm_num) (by norm_num) (by norm_num)
          (by norm_num) (by norm_num) rfl (by decide))
    (by simp) hσ (coef := fun j idx => .ok (c j (idx.map BitVec.toNat))) (out := ⟨1, 10, fun _ _ => 7⟩) rfl (c := c)
    (fun j _ idx hidx => by
      dsimp only
      rw [List.map_map]
      congr 2
      refine (List.map_congr_left fun i hi => ?_).trans (List.map_id _)
      have : i < 6 := by
        match idx, hidx with
        | [a, b, d], .cons h1 (.cons h2 (.cons h3 .nil)) =>
          simp only [List.mem_cons, List.not_mem_nil, or_false] at hi
          dsimp only at h1 h2 h3
          omega
      simp only [Function.comp, BitVec.toNat_ofNat, id]
      omega)
    (fun j _ => ⟨by simp, fun x => ⟨fun _ i hi l => hper j x i l hi, fun _ => ⟨by simp, fun _ => trivial⟩⟩⟩)
    (M := fun _ => 1) (fun _ => zero_le_one) (fun j _ l _ => hc j l)
  refine ⟨u, t, eu, out', e, fun j hj => ?_⟩
  obtain ⟨I, h1, h2⟩ := h j hj
  refine ⟨I, h1, ?_⟩
  have s1 : (mkKnots round53 0 1 4 3).step = round53 (1 / 4) := by decide +kernel
  have s2 : (mkKnots round53 0 1 3 3).step = round53 (1 / 3) := by decide +kernel
  have s3 : round53 (1 / 4) = 1 / 4 := by decide +kernel
  have s4 : round53 (1 / 3) ≤ 1 := by decide +kernel
  simp only [List.map_cons, List.map_nil, List.prod_cons, List.prod_nil, List.sum_cons, List.sum_nil, List.length_cons, List.length_nil,
    s1, s2, hlen, one_mul, mul_one, tensorError, mul_assoc] at h2
  refine h2.trans ?_
  rw [s3]
  norm_num at s4 ⊢
  linarith

end DDC.Props
