import Verif.Lemmas.NDerivs
import Verif.Lemmas.RoundedNear
import Verif.Lemmas.RoundedLoops
import Verif.Model.RoundedNDerivs

/-!
# The loops of `eval_basis_and_n_derivs`, with rounding

As in `Lemmas/NDerivs.lean`, the loops of the uniform and of the non-uniform B-splines are instances of the loops below;
they differ by the weights and by the operation `op` that applies them.
-/

namespace DDC

open One Finset

namespace NDerR

variable (fl : Rat → Rat) (op : Rat → Rat → Rat)

def inner (wt : Int → Res Rat) (ndu : Arr2 Rat) (rk pk s1 s2 : Int) (j : Nat) (s : Arr2 Rat × Rat) :
    Res (Arr2 Rat × Rat) := do
  let x ← s.1.rd j s1
  let y ← s.1.rd (j - 1) s1
  let q ← wt (rk + j)
  let a ← s.1.wr j s2 (op (fl (x - y)) q)
  let z ← a.rd j s2
  let w ← ndu.rd pk (rk + j)
  pure (a, fl (s.2 + fl (z * w)))

def first (wt : Int → Res Rat) (ndu : Arr2 Rat) (r k rk pk s1 s2 : Int) (a : Arr2 Rat) : Res (Arr2 Rat × Rat) :=
  if k ≤ r then do
    let x ← a.rd 0 s1
    let q ← wt rk
    let a ← a.wr 0 s2 (op x q)
    let z ← a.rd 0 s2
    let w ← ndu.rd pk rk
    pure (a, fl (z * w))
  else pure (a, 0)

def last (wt : Int → Res Rat) (ndu : Arr2 Rat) (r k pk s1 s2 : Int) (s : Arr2 Rat × Rat) : Res (Arr2 Rat × Rat) :=
  if r ≤ pk then do
    let x ← s.1.rd (k - 1) s1
    let q ← wt r
    let a ← s.1.wr k s2 (op (-x) q)
    let z ← a.rd k s2
    let w ← ndu.rd pk r
    pure (a, fl (s.2 + fl (z * w)))
  else pure s

def order (wt : Int → Int → Res Rat) (p : Nat) (ndu : Arr2 Rat) (r : Nat) (k : Nat) (s : UBS.CoefState Rat) :
    Res (UBS.CoefState Rat) := do
  let rk : Int := (r : Int) - k
  let pk : Int := (p : Int) - k
  let f ← first fl op (wt pk) ndu r k rk pk s.s1 s.s2 s.a
  let j1 : Int := if -1 < rk then 1 else -rk
  let j2 : Int := if (r : Int) - 1 ≤ pk then k else (p : Int) - r + 1
  let f ← forLoop (inner fl op (wt pk) ndu rk pk s.s1 s.s2) j1.toNat (j2.toNat - j1.toNat) f
  let f ← last fl op (wt pk) ndu r k pk s.s1 s.s2 f
  let d ← s.derivs.wr r k f.2
  pure ⟨f.1, d, s.s2, s.s1⟩

def spline (wt : Int → Int → Res Rat) (p n : Nat) (ndu : Arr2 Rat) (r : Nat) (s : Arr2 Rat × Arr2 Rat) :
    Res (Arr2 Rat × Arr2 Rat) := do
  let a ← s.1.wr 0 0 1
  let t ← forLoop (order fl op wt p ndu r) 1 n ⟨a, s.2, 0, 1⟩
  pure (t.a, t.derivs)

theorem ubs_spline (p n : Nat) (ndu : Arr2 Rat) :
    Rounded.Knots.splineStep fl p n ndu =
      spline fl (fun v q => fl (v / q)) (fun pk _ => .ok ((pk + 1 : Int) : Rat)) p n ndu := rfl

theorem nubs_spline (p n : Nat) (ndu : Arr2 Rat) :
    Rounded.splineStep fl p n ndu = spline fl (fun v q => fl (v * q)) (fun pk i => ndu.rd i (pk + 1)) p n ndu := rfl

variable {fl op}

/-! ## What they compute -/

/-- The column `col` of the array `a` contains the coefficients needed, after `7` operations for each order. -/
structure Coefs (a : Arr2 Rat) (p r k : Nat) (col : Int) (A : Nat → Rat) : Prop where
  rows : a.rows = p + 1
  cols : a.cols = 2
  val : ∀ j, NDer.Need p r k j → ∃ v, a.val j col = some v ∧ Near (7 * k) v (A j)

/-- The data of the loops: dimensions of `ndu`, its entries `P`, the weights `w`. -/
structure Data (op : Rat → Rat → Rat) (wt : Int → Int → Res Rat) (p : Nat) (ndu : Arr2 Rat) (r : Nat) (P w : Nat → Nat → Rat) :
    Prop where
  rows : ndu.rows = p + 1
  cols : ndu.cols = p + 1
  entry : ∀ k j, k ≤ p → NDer.Need p r k j → ndu.val ((p : Int) - k) ((r : Int) - k + j) = some (P k j)
  zero : ∀ k j, k ≤ p → j ≤ k → ¬ NDer.Need p r k j → P k j = 0
  weight : ∀ k j, 1 ≤ k → k ≤ p → NDer.Need p r k j → ∃ q, wt ((p : Int) - k) ((r : Int) - k + j) = .ok q ∧
    ∀ m v y, Near m v y → Near (m + 6) (op v q) (y * w k j)
  pos : ∀ k j, 0 ≤ w k j

/-- The signs of the coefficients alternate. -/
theorem dcoef_sign {w : Nat → Nat → Rat} (hw : ∀ k j, 0 ≤ w k j) (k j : Nat) : 0 ≤ (-1) ^ j * Spec.dcoef w k j := by
  induction k generalizing j with
  | zero =>
    rw [Spec.dcoef]
    split
    · rename_i h; subst h; norm_num
    · simp
  | succ k ih =>
    rw [Spec.dcoef, ← mul_assoc]
    refine mul_nonneg ?_ (hw _ _)
    cases j with
    | zero => simpa using ih 0
    | succ j =>
      rw [if_neg (Nat.succ_ne_zero j), Nat.add_sub_cancel, mul_sub]
      have h1 := ih (j + 1)
      have h2 := ih j
      rw [pow_succ] at *
      linarith

theorem abs_sub_opp {x y : Rat} (h : x * y ≤ 0) : |x - y| = |x| + |y| := by
  rcases le_total 0 x with hx | hx <;> rcases le_total 0 y with hy | hy
  · have : x * y = 0 := le_antisymm h (mul_nonneg hx hy)
    rcases mul_eq_zero.1 this with rfl | rfl <;> simp
  · rw [abs_of_nonneg hx, abs_of_nonpos hy, abs_of_nonneg (by linarith)]; ring
  · rw [abs_of_nonpos hx, abs_of_nonneg hy, abs_of_nonpos (by linarith)]; ring
  · have : x * y = 0 := le_antisymm h (mul_nonneg_of_nonpos_of_nonpos hx hy)
    rcases mul_eq_zero.1 this with rfl | rfl <;> simp

theorem dcoef_opp {w : Nat → Nat → Rat} (hw : ∀ k j, 0 ≤ w k j) (k j : Nat) :
    |Spec.dcoef w k (j + 1) - Spec.dcoef w k j| = |Spec.dcoef w k (j + 1)| + |Spec.dcoef w k j| := by
  refine abs_sub_opp ?_
  have h1 := dcoef_sign hw k (j + 1)
  have h2 := dcoef_sign hw k j
  have h3 := mul_nonneg h1 h2
  have e : (-1 : Rat) ^ (j + 1) * Spec.dcoef w k (j + 1) * ((-1) ^ j * Spec.dcoef w k j) =
      -(((-1) ^ j * (-1) ^ j) * (Spec.dcoef w k (j + 1) * Spec.dcoef w k j)) := by rw [pow_succ]; ring
  rw [e, ← mul_pow] at h3
  norm_num at h3
  exact h3

/-- The sum of a computed derivative. -/
def Sums (w P : Nat → Nat → Rat) (k : Nat) (d : Rat) : Prop :=
  |d - ∑ j ∈ range (k + 1), Spec.dcoef w k j * P k j| ≤ (up (8 * k + 2) - 1) * ∑ j ∈ range (k + 1), |Spec.dcoef w k j * P k j|

theorem order_ok (hfl : Spec.RoundsAll fl) {wt : Int → Int → Res Rat} {p : Nat} {ndu : Arr2 Rat} {r : Nat} {P w : Nat → Nat → Rat}
    (h : Data op wt p ndu r P w) (hr : r ≤ p) (k : Nat) (hk : k + 1 ≤ p) (s : UBS.CoefState Rat)
    (hs1 : 0 ≤ s.s1 ∧ s.s1 ≤ 1) (hs2 : s.s2 = 1 - s.s1)
    (hA : Coefs s.a p r k s.s1 (Spec.dcoef w k))
    (hdr : s.derivs.rows = p + 1) (hdc : k + 1 < s.derivs.cols) :
    ∃ a d, order fl op wt p ndu r (k + 1) s = .ok ⟨a, s.derivs.set r (k + 1) d, s.s2, s.s1⟩ ∧
      Sums w P (k + 1) d ∧ Coefs a p r (k + 1) s.s2 (Spec.dcoef w (k + 1)) := by
  obtain ⟨a0, derivs, s1, s2⟩ := s
  simp only at hs1 hs2 hA hdr hdc ⊢
  have hne : s1 ≠ s2 := by omega
  have hopp : ∀ j, |Spec.dcoef w k (j + 1) - Spec.dcoef w k j| = |Spec.dcoef w k (j + 1)| + |Spec.dcoef w k j| :=
    dcoef_opp h.pos k
  set A := Spec.dcoef w k with hAdef
  set B := Spec.dcoef w (k + 1) with hBdef
  have hB : ∀ j, B j = (A j - if j = 0 then 0 else A (j - 1)) * w (k + 1) j := fun j => rfl
  have hA0 : ∀ j, k < j → A j = 0 := fun j hj => Spec.dcoef_zero w k j hj
  -- the first block
  obtain ⟨f, ef, hf1, hf2, hf3⟩ : ∃ f : Arr2 Rat × Rat,
      first fl op (wt ((p : Int) - (k + 1 : Nat))) ndu r ((k + 1 : Nat) : Int) ((r : Int) - (k + 1 : Nat))
        ((p : Int) - (k + 1 : Nat)) s1 s2 a0 = .ok f ∧
      Coefs f.1 p r k s1 A ∧
      (k + 1 ≤ r → ∃ v, f.1.val 0 s2 = some v ∧ Near (7 * (k + 1)) v (B 0)) ∧
      |f.2 - ∑ j ∈ range (if k + 1 ≤ r then 1 else k + 1 - r), B j * P (k + 1) j| ≤
        (up (7 * (k + 1) + 1 + (if k + 1 ≤ r then 1 else k + 1 - r)) - 1) *
        ∑ j ∈ range (if k + 1 ≤ r then 1 else k + 1 - r), |B j * P (k + 1) j| := by
    by_cases hkr : k + 1 ≤ r
    · have hkr' : ((k + 1 : Nat) : Int) ≤ (r : Int) := by exact_mod_cast hkr
      have n0 : NDer.Need p r (k + 1) 0 := ⟨by omega, by omega, by omega⟩
      have n0' : NDer.Need p r k 0 := ⟨by omega, by omega, by omega⟩
      obtain ⟨q, ew, eq⟩ := h.weight (k + 1) 0 (by omega) hk n0
      have ee := h.entry (k + 1) 0 hk n0
      rw [Int.ofNat_zero, add_zero] at ew ee
      obtain ⟨v0, ea, ev⟩ := hA.val 0 n0'
      rw [Int.ofNat_zero] at ea
      rw [first, if_pos hkr', Arr2.rd_ok ⟨le_refl _, by rw [hA.rows]; omega, hs1.1, by rw [hA.cols]; omega⟩ ea,
        Res.ok_bind, ew, Res.ok_bind,
        Arr2.wr_ok ⟨le_refl _, by rw [hA.rows]; omega, by omega, by rw [hA.cols]; omega⟩, Res.ok_bind,
        Arr2.rd_ok ⟨le_refl _, by rw [Arr2.set_rows, hA.rows]; omega, by omega,
          by rw [Arr2.set_cols, hA.cols]; omega⟩ (by rw [Arr2.set_val, if_pos ⟨rfl, rfl⟩]), Res.ok_bind,
        Arr2.rd_ok ⟨by omega, by rw [h.rows]; omega, by omega, by rw [h.cols]; omega⟩ ee]
      have hb0 : Near (7 * (k + 1)) (op v0 q) (B 0) := by
        have := eq _ _ _ ev
        rw [hB, if_pos rfl, sub_zero]
        exact this.mono (by omega)
      refine ⟨_, rfl, ⟨hA.rows, hA.cols, fun j hj => ?_⟩, fun _ => ⟨_, ?_, hb0⟩, ?_⟩
      · rw [Arr2.set_val, if_neg (fun e => hne e.2)]; exact hA.val j hj
      · rw [Arr2.set_val, if_pos ⟨rfl, rfl⟩]
      · simp only [if_pos hkr, sum_range_one]
        exact ((hb0.mul (Near.refl (P (k + 1) 0))).fl hfl).mono (by omega)
    · have hkr' : ¬ ((k + 1 : Nat) : Int) ≤ (r : Int) := by exact_mod_cast hkr
      rw [first, if_neg hkr']
      refine ⟨_, rfl, hA, fun e => absurd e hkr, ?_⟩
      rw [if_neg hkr]
      have z : ∀ j ∈ range (k + 1 - r), B j * P (k + 1) j = 0 := fun j hj => by
        have := mem_range.1 hj
        rw [h.zero (k + 1) j hk (by omega) (fun e => by have := e.1; omega), mul_zero]
      rw [sum_eq_zero z, sum_eq_zero (fun j hj => by rw [z j hj, abs_zero])]
      simp
  -- the bounds of the loop
  set lo := if k + 1 ≤ r then 1 else k + 1 - r with hlo
  set hi := if k + 1 ≤ p - r + 1 then k + 1 else p - r + 1 with hhi
  have e1 : (if (-1 : Int) < (r : Int) - (k + 1 : Nat) then (1 : Int) else
      -((r : Int) - (k + 1 : Nat))).toNat = lo := by
    rw [hlo]; split <;> split <;> omega
  have e2 : (if (r : Int) - 1 ≤ (p : Int) - (k + 1 : Nat) then ((k + 1 : Nat) : Int) else
      (p : Int) - r + 1).toNat = hi := by
    rw [hhi]; split <;> split <;> omega
  have hle : lo ≤ hi := by rw [hlo, hhi]; split <;> split <;> omega
  have hlo1 : 1 ≤ lo := by rw [hlo]; split <;> omega
  have hlon : ∀ j, lo ≤ j → k + 1 ≤ r + j := by rw [hlo]; intro j; split <;> omega
  have hhin : ∀ j, j < hi → j ≤ k ∧ r + j ≤ p := by rw [hhi]; intro j; split <;> omega
  have hlon' : ∀ j, j < lo → k + 1 ≤ r + j → j = 0 ∧ k + 1 ≤ r := by
    rw [hlo]; intro j; split <;> omega
  have hhin' : ∀ j, hi ≤ j → j ≤ k + 1 → r + j ≤ p → j = k + 1 ∧ hi = k + 1 := by
    rw [hhi]; intro j; split <;> omega
  have hsum : ∀ j, |∑ i ∈ range j, B i * P (k + 1) i| ≤ ∑ i ∈ range j, |B i * P (k + 1) i| :=
    fun j => abs_sum_le_sum_abs _ _
  -- the loop
  obtain ⟨g, eg, hg1, hg2, hg3⟩ := forLoop_inv
    (f := inner fl op (wt ((p : Int) - (k + 1 : Nat))) ndu ((r : Int) - (k + 1 : Nat))
      ((p : Int) - (k + 1 : Nat)) s1 s2)
    (fun j (s : Arr2 Rat × Rat) => Coefs s.1 p r k s1 A ∧
      (∀ i, NDer.Need p r (k + 1) i → i < j → ∃ v, s.1.val i s2 = some v ∧ Near (7 * (k + 1)) v (B i)) ∧
      |s.2 - ∑ i ∈ range j, B i * P (k + 1) i| ≤ (up (7 * (k + 1) + 1 + j) - 1) * ∑ i ∈ range j, |B i * P (k + 1) i|)
    (hi - lo) lo f
    ⟨hf1, fun i hi hi' => by
      obtain ⟨rfl, h0⟩ := hlon' i hi' hi.1
      exact hf2 h0, hf3⟩
    (by
      rintro j ⟨a, d⟩ hj1 hj2 ⟨h1, h2, h3⟩
      simp only at h1 h2 h3
      have hn1 := hlon j hj1
      have hn2 := hhin j (by omega)
      have n1 : NDer.Need p r (k + 1) j := ⟨hn1, by omega, hn2.2⟩
      have n2 : NDer.Need p r k j := ⟨by omega, hn2.1, hn2.2⟩
      have n3 : NDer.Need p r k (j - 1) := ⟨by omega, by omega, by omega⟩
      have cj : ((j : Int) - 1) = ((j - 1 : Nat) : Int) := by omega
      obtain ⟨x, ex, ex'⟩ := h1.val j n2
      obtain ⟨y, ey, ey'⟩ := h1.val (j - 1) n3
      obtain ⟨q, ew, eq⟩ := h.weight (k + 1) j (by omega) hk n1
      simp only [inner]
      rw [Arr2.rd_ok ⟨by omega, by rw [h1.rows]; omega, hs1.1, by rw [h1.cols]; omega⟩ ex,
        Res.ok_bind, cj,
        Arr2.rd_ok ⟨by omega, by rw [h1.rows]; omega, hs1.1, by rw [h1.cols]; omega⟩ ey,
        Res.ok_bind, ew, Res.ok_bind,
        Arr2.wr_ok ⟨by omega, by rw [h1.rows]; omega, by omega, by rw [h1.cols]; omega⟩, Res.ok_bind,
        Arr2.rd_ok ⟨by omega, by rw [Arr2.set_rows, h1.rows]; omega, by omega,
          by rw [Arr2.set_cols, h1.cols]; omega⟩ (by rw [Arr2.set_val, if_pos ⟨rfl, rfl⟩]), Res.ok_bind,
        Arr2.rd_ok ⟨by omega, by rw [h.rows]; omega, by omega, by rw [h.cols]; omega⟩
          (h.entry (k + 1) j hk n1)]
      have hb : Near (7 * (k + 1)) (op (fl (x - y)) q) (B j) := by
        have ho := hopp (j - 1)
        rw [show j - 1 + 1 = j by omega] at ho
        have := eq _ _ _ ((ex'.sub ey' ho).fl hfl)
        rw [hB, if_neg (by omega)]
        exact this.mono (by omega)
      refine ⟨_, rfl, ⟨h1.rows, h1.cols, fun i hi => ?_⟩, fun i hi hi' => ?_, ?_⟩
      · rw [Arr2.set_val, if_neg (fun e => hne e.2)]; exact h1.val i hi
      · rw [Arr2.set_val]
        by_cases hij : i = j
        · subst hij; rw [if_pos ⟨rfl, rfl⟩]; exact ⟨_, rfl, hb⟩
        · rw [if_neg (fun e => hij (by exact_mod_cast e.1))]; exact h2 i hi (by omega)
      · rw [sum_range_succ, sum_range_succ]
        exact (sum_step hfl (hsum j) h3 (((hb.mul (Near.refl (P (k + 1) j))).fl hfl).mono (by omega))).2)
  rw [show lo + (hi - lo) = hi by omega] at hg2 hg3
  -- the last block
  obtain ⟨l, el, hl1, hl2⟩ : ∃ l : Arr2 Rat × Rat,
      last fl op (wt ((p : Int) - (k + 1 : Nat))) ndu r ((k + 1 : Nat) : Int) ((p : Int) - (k + 1 : Nat))
        s1 s2 g = .ok l ∧ Coefs l.1 p r (k + 1) s2 B ∧ Sums w P (k + 1) l.2 := by
    by_cases hrp : r + (k + 1) ≤ p
    · have hrp' : (r : Int) ≤ (p : Int) - (k + 1 : Nat) := by omega
      have n1 : NDer.Need p r (k + 1) (k + 1) := ⟨by omega, by omega, by omega⟩
      have n2 : NDer.Need p r k k := ⟨by omega, by omega, by omega⟩
      have hhi' : hi = k + 1 := by rw [hhi, if_pos (by omega)]
      have ck : (((k + 1 : Nat) : Int) - 1) = (k : Int) := by omega
      have cr : (r : Int) - (k + 1 : Nat) + (k + 1 : Nat) = r := by omega
      obtain ⟨q, ew, eq⟩ := h.weight (k + 1) (k + 1) (by omega) hk n1
      have ee := h.entry (k + 1) (k + 1) hk n1
      rw [cr] at ew ee
      obtain ⟨x, ex, ex'⟩ := hg1.val k n2
      have hb : Near (7 * (k + 1)) (op (-x) q) (B (k + 1)) := by
        have := eq _ _ _ ex'.neg
        rw [hB, if_neg (by omega), hA0 (k + 1) (by omega), Nat.add_sub_cancel, zero_sub]
        exact this.mono (by omega)
      rw [last, if_pos hrp', ck,
        Arr2.rd_ok ⟨by omega, by rw [hg1.rows]; omega, hs1.1, by rw [hg1.cols]; omega⟩ ex,
        Res.ok_bind, ew, Res.ok_bind,
        Arr2.wr_ok ⟨by omega, by rw [hg1.rows]; omega, by omega, by rw [hg1.cols]; omega⟩, Res.ok_bind,
        Arr2.rd_ok ⟨by omega, by rw [Arr2.set_rows, hg1.rows]; omega, by omega,
          by rw [Arr2.set_cols, hg1.cols]; omega⟩ (by rw [Arr2.set_val, if_pos ⟨rfl, rfl⟩]), Res.ok_bind,
        Arr2.rd_ok ⟨by omega, by rw [h.rows]; omega, by omega, by rw [h.cols]; omega⟩ ee]
      refine ⟨_, rfl, ⟨hg1.rows, hg1.cols, fun i hi => ?_⟩, ?_⟩
      · rw [Arr2.set_val]
        by_cases hij : i = k + 1
        · subst hij; rw [if_pos ⟨rfl, rfl⟩]; exact ⟨_, rfl, hb⟩
        · rw [if_neg (fun e => hij (by exact_mod_cast e.1))]
          exact hg2 i hi (by have := hi.2.1; omega)
      · rw [hhi'] at hg3
        rw [Sums, sum_range_succ _ (k + 1), sum_range_succ _ (k + 1)]
        have := (sum_step hfl (hsum (k + 1)) hg3
          (((hb.mul (Near.refl (P (k + 1) (k + 1)))).fl hfl).mono (show _ ≤ 7 * (k + 1) + 1 + (k + 1) by omega))).2
        rwa [show 7 * (k + 1) + 1 + (k + 1) + 1 = 8 * (k + 1) + 2 by omega] at this
    · have hrp' : ¬ (r : Int) ≤ (p : Int) - (k + 1 : Nat) := by omega
      rw [last, if_neg hrp']
      refine ⟨_, rfl, ⟨hg1.rows, hg1.cols, fun i hi => ?_⟩, ?_⟩
      · refine hg2 i hi ?_
        by_contra hc
        have := hhin' i (by omega) hi.2.1 hi.2.2
        have := hi.2.2
        omega
      · have hhik : hi ≤ k + 2 := by rw [hhi]; split <;> omega
        have z : ∀ j, j ∈ range (k + 2) → j ∉ range hi → B j * P (k + 1) j = 0 := by
          intro j hj hj'
          have h1 := mem_range.1 hj
          have h2 : hi ≤ j := by simpa using hj'
          rw [h.zero (k + 1) j hk (by omega) (fun e => ?_), mul_zero]
          have := hhin' j h2 e.2.1 e.2.2
          have := e.2.2
          omega
        rw [Sums, ← sum_subset (range_mono hhik) z, ← sum_subset (range_mono hhik) (fun j hj hj' => by rw [z j hj hj', abs_zero])]
        refine hg3.trans (mul_le_mul_of_nonneg_right ?_ (sum_nonneg fun _ _ => abs_nonneg _))
        have := up_mono (show 7 * (k + 1) + 1 + hi ≤ 8 * (k + 1) + 2 by omega)
        linarith
  refine ⟨l.1, l.2, ?_, hl2, hl1⟩
  simp only [order, ef, Res.ok_bind, e1, e2, eg, el]
  rw [Arr2.wr_ok ⟨by omega, by rw [hdr]; omega, by omega, by omega⟩]
  rfl

theorem spline_ok (hfl : Spec.RoundsAll fl) {wt : Int → Int → Res Rat} {p : Nat} {ndu : Arr2 Rat} {r : Nat}
    {P w : Nat → Nat → Rat} (h : Data op wt p ndu r P w) (hr : r ≤ p) (n : Nat) (hn : n ≤ p) (s : Arr2 Rat × Arr2 Rat)
    (har : s.1.rows = p + 1) (hac : s.1.cols = 2) (hdr : s.2.rows = p + 1) (hdc : s.2.cols = n + 1) :
    ∃ t, spline fl op wt p n ndu r s = .ok t ∧ t.1.rows = p + 1 ∧ t.1.cols = 2 ∧ t.2.rows = p + 1 ∧
      t.2.cols = n + 1 ∧
      (∀ k : Nat, 1 ≤ k → k ≤ n → ∃ d, t.2.val r k = some d ∧ Sums w P k d) ∧
      (∀ i k : Nat, ¬ (i = r ∧ 1 ≤ k ∧ k ≤ n) → t.2.val i k = s.2.val i k) := by
  obtain ⟨a, d⟩ := s
  simp only at har hac hdr hdc ⊢
  obtain ⟨t, e, _, _, h3, h4, h5, h6, h7⟩ := forLoop_inv (f := order fl op wt p ndu r)
    (fun k (s : UBS.CoefState Rat) => (0 ≤ s.s1 ∧ s.s1 ≤ 1) ∧ s.s2 = 1 - s.s1 ∧
      Coefs s.a p r (k - 1) s.s1 (Spec.dcoef w (k - 1)) ∧ s.derivs.rows = p + 1 ∧
      s.derivs.cols = n + 1 ∧
      (∀ l : Nat, 1 ≤ l → l < k → ∃ d, s.derivs.val r l = some d ∧ Sums w P l d) ∧
      (∀ i l : Nat, ¬ (i = r ∧ 1 ≤ l ∧ l < k) → s.derivs.val i l = d.val i l))
    n 1 ⟨a.set 0 0 1, d, 0, 1⟩
    ⟨⟨le_refl _, by simp⟩, by simp, ⟨har, hac, fun j hj => by
      have h1 := hj.2.1
      obtain rfl : j = 0 := by omega
      rw [Arr2.set_val, if_pos ⟨by simp, rfl⟩]
      exact ⟨_, rfl, by simpa [Spec.dcoef] using Near.refl 1⟩⟩, hdr, hdc, fun l h1 h2 => by omega, fun i l _ => rfl⟩
    (by
      rintro k s hk hk' ⟨h1, h2, h3, h4, h5, h6, h7⟩
      obtain ⟨k, rfl⟩ : ∃ l, k = l + 1 := ⟨k - 1, by omega⟩
      simp only [Nat.add_sub_cancel] at h3 ⊢
      obtain ⟨a', d', e, h8, h9⟩ := order_ok hfl h hr k (by omega) s h1 h2 h3 h4 (by omega)
      refine ⟨_, e, ⟨by simp only; omega, by simp only; omega⟩, by simp only; omega, h9, h4, h5,
        fun l hl hl' => ?_, fun i l hn => ?_⟩
      · rw [Arr2.set_val]
        by_cases hlk : l = k + 1
        · subst hlk
          rw [if_pos ⟨rfl, by push_cast; rfl⟩]
          exact ⟨_, rfl, h8⟩
        · rw [if_neg (fun e => hlk (by have := e.2; omega))]
          exact h6 l hl (by omega)
      · rw [Arr2.set_val, if_neg (fun e => hn (by have := e.1; have := e.2; omega))]
        exact h7 i l (fun e => hn (by omega)))
  refine ⟨(t.a, t.derivs), ?_, h3.rows, h3.cols, h4, h5, fun k h1 h2 => h6 k h1 (by omega), fun i k hn => h7 i k (by omega)⟩
  simp only [spline]
  rw [Arr2.wr_ok ⟨le_refl _, by rw [har]; omega, le_refl _, by rw [hac]; omega⟩, Res.ok_bind, e]
  rfl

/-- All the B-splines. -/
theorem splines_ok (hfl : Spec.RoundsAll fl) {wt : Int → Int → Res Rat} {p : Nat} {ndu : Arr2 Rat} {P w : Nat → Nat → Nat → Rat}
    (h : ∀ r, r ≤ p → Data op wt p ndu r (P r) (w r)) (n : Nat) (hn : n ≤ p) (s : Arr2 Rat × Arr2 Rat)
    (har : s.1.rows = p + 1) (hac : s.1.cols = 2) (hdr : s.2.rows = p + 1) (hdc : s.2.cols = n + 1) :
    ∃ t, forLoop (spline fl op wt p n ndu) 0 (p + 1) s = .ok t ∧ t.2.rows = p + 1 ∧ t.2.cols = n + 1 ∧
      (∀ i k : Nat, i ≤ p → 1 ≤ k → k ≤ n → ∃ d, t.2.val i k = some d ∧ Sums (w i) (P i) k d) ∧
      (∀ i : Nat, t.2.val i 0 = s.2.val i 0) := by
  obtain ⟨t, e, _, _, h1, h2, h3, h4⟩ := forLoop_inv (f := spline fl op wt p n ndu)
    (fun r (t : Arr2 Rat × Arr2 Rat) => t.1.rows = p + 1 ∧ t.1.cols = 2 ∧ t.2.rows = p + 1 ∧
      t.2.cols = n + 1 ∧
      (∀ i k : Nat, i < r → 1 ≤ k → k ≤ n → ∃ d, t.2.val i k = some d ∧ Sums (w i) (P i) k d) ∧
      (∀ i : Nat, t.2.val i 0 = s.2.val i 0))
    (p + 1) 0 s ⟨har, hac, hdr, hdc, fun i k hi => by omega, fun _ => rfl⟩
    (by
      rintro r t - hr ⟨h1, h2, h3, h4, h5, h6⟩
      obtain ⟨t', e, g1, g2, g3, g4, g5, g6⟩ := spline_ok hfl (h r (by omega)) (by omega) n hn t h1 h2 h3 h4
      refine ⟨t', e, g1, g2, g3, g4, fun i k hi hk hk' => ?_, fun i => ?_⟩
      · by_cases hir : i = r
        · subst hir; exact g5 k hk hk'
        · rw [g6 i k (by omega)]; exact h5 i k (by omega) hk hk'
      · have := g6 i 0 (by omega)
        rw [Int.ofNat_zero] at this
        rw [this, h6])
  exact ⟨t, e, h1, h2, fun i k hi hk hk' => h3 i k (by omega) hk hk', h4⟩

/-! ## The multiplication by the factors -/

theorem scaleEntry_ok {k m N : Nat} {d0 : Arr2 Rat} {D : Nat → Rat} (f : Rat) (hr : d0.rows = m)
    (hc : d0.cols = N) (hk : k < N) (hD : ∀ i : Nat, i < m → d0.val i k = some (D i)) :
    ∃ d, forLoop (Rounded.scaleEntry fl k f) 0 m d0 = .ok d ∧ d.rows = m ∧ d.cols = N ∧
      (∀ i : Nat, i < m → d.val i k = some (fl (D i * f))) ∧
      (∀ i l : Nat, l ≠ k → d.val i l = d0.val i l) := by
  obtain ⟨d, e, h1, h2, h3, h4, h5⟩ := forLoop_inv (f := Rounded.scaleEntry fl k f)
    (fun j (d : Arr2 Rat) => d.rows = m ∧ d.cols = N ∧ (∀ i : Nat, i < j → d.val i k = some (fl (D i * f))) ∧
      (∀ i : Nat, j ≤ i → i < m → d.val i k = some (D i)) ∧
      (∀ i l : Nat, l ≠ k → d.val i l = d0.val i l))
    m 0 d0 ⟨hr, hc, fun i hi => absurd hi (by omega), fun i _ hi => hD i hi, fun _ _ _ => rfl⟩
    (by
      rintro j d - hj ⟨h1, h2, h3, h4, h5⟩
      simp only [Rounded.scaleEntry]
      rw [Arr2.rd_ok ⟨by omega, by rw [h1]; omega, by omega, by rw [h2]; omega⟩
        (h4 j (le_refl _) (by omega)), Res.ok_bind,
        Arr2.wr_ok ⟨by omega, by rw [h1]; omega, by omega, by rw [h2]; omega⟩]
      refine ⟨_, rfl, h1, h2, fun i hi => ?_, fun i hi hi' => ?_, fun i l hl => ?_⟩
      · rw [Arr2.set_val]
        by_cases hij : i = j
        · subst hij; rw [if_pos ⟨rfl, rfl⟩]
        · rw [if_neg (fun e => hij (by exact_mod_cast e.1))]; exact h3 i (by omega)
      · rw [Arr2.set_val, if_neg (fun e => by have := e.1; omega)]; exact h4 i (by omega) hi'
      · rw [Arr2.set_val, if_neg (fun e => hl (by exact_mod_cast e.2))]; exact h5 i l hl)
  exact ⟨d, e, h1, h2, fun i hi => h3 i (by omega), h5⟩

theorem ubs_scale_ok (hfl : Spec.RoundsAll fl) {p n : Nat} {d0 : Arr2 Rat} {D : Nat → Nat → Rat} {q h : Rat} (hq : Near 1 q h)
    (hr : d0.rows = p + 1) (hc : d0.cols = n + 1) (hn : n ≤ p)
    (hD : ∀ i k : Nat, i ≤ p → k ≤ n → d0.val i k = some (D i k)) :
    ∃ s, forLoop (Rounded.Knots.scaleStep fl p q) 1 n (d0, fl ((p : Rat) * q)) = .ok s ∧ s.1.rows = p + 1 ∧
      s.1.cols = n + 1 ∧ (∀ i : Nat, i ≤ p → s.1.val i 0 = some (D i 0)) ∧
      ∀ i k : Nat, i ≤ p → 1 ≤ k → k ≤ n → ∃ F, Near (3 * k) F (((p.descFactorial k : Nat) : Rat) * h ^ k) ∧
        s.1.val i k = some (fl (D i k * F)) := by
  obtain ⟨s, e, h1, h2, h3, h4, h5⟩ := forLoop_inv (f := Rounded.Knots.scaleStep fl p q)
    (fun k (s : Arr2 Rat × Rat) => s.1.rows = p + 1 ∧ s.1.cols = n + 1 ∧
      Near (3 * k) s.2 (((p.descFactorial k : Nat) : Rat) * h ^ k) ∧
      (∀ i l : Nat, i ≤ p → 1 ≤ l → l < k → ∃ F, Near (3 * l) F (((p.descFactorial l : Nat) : Rat) * h ^ l) ∧
        s.1.val i l = some (fl (D i l * F))) ∧
      (∀ i l : Nat, i ≤ p → l ≤ n → (l = 0 ∨ k ≤ l) → s.1.val i l = some (D i l)))
    n 1 (d0, fl ((p : Rat) * q))
    ⟨hr, hc, by
      have := ((Near.refl (p : Rat)).mul hq).fl hfl
      simpa using this.mono (show _ ≤ 3 by omega), fun i l _ h1 h2 => by omega, fun i l hi hl _ => hD i l hi hl⟩
    (by
      rintro k ⟨d, f⟩ hk hk' ⟨h1, h2, h3, h4, h5⟩
      simp only at h1 h2 h3 h4 h5
      obtain ⟨d', e, g1, g2, g3, g4⟩ := scaleEntry_ok (fl := fl) (k := k) (m := p + 1) (N := n + 1) (D := fun i => D i k) f h1 h2
        (by omega) (fun i hi => h5 i k (by omega) (by omega) (by omega))
      simp only [Rounded.Knots.scaleStep, h1, e, Res.ok_bind, Res.pure_eq]
      refine ⟨_, rfl, g1, g2, ?_, fun i l hi hl hl' => ?_, fun i l hi hl hl' => ?_⟩
      · have := (h3.mul (((Near.refl ((p : Rat) - k)).mul hq).fl hfl)).fl hfl
        rw [Nat.descFactorial_succ, Nat.cast_mul, Nat.cast_sub (by omega)]
        have e : ((p : Rat) - k) * ((p.descFactorial k : Nat) : Rat) * h ^ (k + 1) =
          ((p.descFactorial k : Nat) : Rat) * h ^ k * (((p : Rat) - k) * h) := by ring
        rw [e]
        exact this.mono (by omega)
      · by_cases hlk : l = k
        · subst hlk
          exact ⟨f, h3, g3 i (by omega)⟩
        · rw [g4 i l hlk]; exact h4 i l hi hl (by omega)
      · rw [g4 i l (by omega)]; exact h5 i l hi hl (by omega))
  refine ⟨s, e, h1, h2, fun i hi => ?_, fun i k hi hk hk' => h4 i k hi hk (by omega)⟩
  exact h5 i 0 hi (by omega) (Or.inl rfl)

theorem nubs_scale_ok {p n : Nat} {d0 : Arr2 Rat} {D : Nat → Nat → Rat} (hr : d0.rows = p + 1)
    (hc : d0.cols = n + 1) (hn : n ≤ p)
    (hD : ∀ i k : Nat, i ≤ p → k ≤ n → d0.val i k = some (D i k)) :
    ∃ s, forLoop (Rounded.scaleStep fl p) 1 n (d0, BitVec.ofNat 32 p) = .ok s ∧ s.1.rows = p + 1 ∧
      s.1.cols = n + 1 ∧ (∀ i : Nat, i ≤ p → s.1.val i 0 = some (D i 0)) ∧
      ∀ i k : Nat, i ≤ p → 1 ≤ k → k ≤ n → s.1.val i k = some (fl (D i k * ((NDer.factor p k : Int) : Rat))) := by
  obtain ⟨s, e, h1, h2, h3, h4⟩ := forLoop_inv (f := Rounded.scaleStep fl p)
    (fun k (s : Arr2 Rat × BitVec 32) => s.1.rows = p + 1 ∧ s.1.cols = n + 1 ∧
      s.2 = BitVec.ofNat 32 (p.descFactorial k) ∧
      (∀ i l : Nat, i ≤ p → l ≤ n → s.1.val i l = some (if 1 ≤ l ∧ l < k then
        fl (D i l * ((NDer.factor p l : Int) : Rat)) else D i l)))
    n 1 (d0, BitVec.ofNat 32 p)
    ⟨hr, hc, by simp, fun i l hi hl => by
      rw [hD i l hi hl, if_neg (by omega)]⟩
    (by
      rintro k ⟨d, f⟩ hk hk' ⟨h1, h2, h3, h4⟩
      simp only at h1 h2 h3 h4
      obtain ⟨d', e, g1, g2, g3, g4⟩ := scaleEntry_ok (fl := fl) (k := k) (m := p + 1) (N := n + 1) (D := fun i => D i k)
        ((f.toInt : Int) : Rat) h1 h2
        (by omega) (fun i hi => by rw [h4 i k (by omega) (by omega), if_neg (by omega)])
      simp only [Rounded.scaleStep, h1, e, Res.ok_bind, Res.pure_eq]
      refine ⟨_, rfl, g1, g2, ?_, fun i l hi hl => ?_⟩
      · simp only [h3]
        rw [NDer.int32_mul _ _ _ (by omega), Nat.descFactorial_succ, ← BitVec.ofNat_mul, Nat.mul_comm]
      · by_cases hlk : l = k
        · subst hlk
          rw [g3 i (by omega), if_pos (by omega), h3]; rfl
        · rw [g4 i l hlk, h4 i l hi hl]
          by_cases hlt : 1 ≤ l ∧ l < k
          · rw [if_pos hlt, if_pos (by omega)]
          · rw [if_neg hlt, if_neg (by omega)])
  refine ⟨s, e, h1, h2, fun i hi => ?_, fun i k hi hk hk' => ?_⟩
  · have := h4 i 0 hi (by omega)
    rwa [if_neg (by omega), Int.ofNat_zero] at this
  · rw [h4 i k hi hk', if_pos (by omega)]

end NDerR

end DDC
