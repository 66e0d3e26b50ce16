import Verif.Lemmas.Derivs

/-!
# The loops of `eval_basis_and_n_derivs`

The loops of the uniform and of the non-uniform B-splines differ by the weights only; both are instances
of the loops below.
-/

namespace DDC

set_option linter.unusedSectionVars false

open One

variable {K : Type} [Field K] [LinearOrder K]

/-! ## The common loops -/

namespace NDer

def inner (wt : Int → Res K) (ndu : Arr2 K) (rk pk s1 s2 : Int) (j : Nat) (s : Arr2 K × K) :
    Res (Arr2 K × K) := do
  let x ← s.1.rd j s1
  let y ← s.1.rd (j - 1) s1
  let q ← wt (rk + j)
  let a ← s.1.wr j s2 ((x - y) * q)
  let z ← a.rd j s2
  let w ← ndu.rd pk (rk + j)
  pure (a, s.2 + z * w)

def first (wt : Int → Res K) (ndu : Arr2 K) (r k rk pk s1 s2 : Int) (a : Arr2 K) : Res (Arr2 K × K) :=
  if k ≤ r then do
    let x ← a.rd 0 s1
    let q ← wt rk
    let a ← a.wr 0 s2 (x * q)
    let z ← a.rd 0 s2
    let w ← ndu.rd pk rk
    pure (a, z * w)
  else pure (a, 0)

def last (wt : Int → Res K) (ndu : Arr2 K) (r k pk s1 s2 : Int) (s : Arr2 K × K) : Res (Arr2 K × K) :=
  if r ≤ pk then do
    let x ← s.1.rd (k - 1) s1
    let q ← wt r
    let a ← s.1.wr k s2 (-x * q)
    let z ← a.rd k s2
    let w ← ndu.rd pk r
    pure (a, s.2 + z * w)
  else pure s

def order (wt : Int → Int → Res K) (p : Nat) (ndu : Arr2 K) (r : Nat) (k : Nat) (s : UBS.CoefState K) :
    Res (UBS.CoefState K) := do
  let rk : Int := (r : Int) - k
  let pk : Int := (p : Int) - k
  let f ← first (wt pk) ndu r k rk pk s.s1 s.s2 s.a
  let j1 : Int := if -1 < rk then 1 else -rk
  let j2 : Int := if (r : Int) - 1 ≤ pk then k else (p : Int) - r + 1
  let f ← forLoop (inner (wt pk) ndu rk pk s.s1 s.s2) j1.toNat (j2.toNat - j1.toNat) f
  let f ← last (wt pk) ndu r k pk s.s1 s.s2 f
  let d ← s.derivs.wr r k f.2
  pure ⟨f.1, d, s.s2, s.s1⟩

def spline (wt : Int → Int → Res K) (p n : Nat) (ndu : Arr2 K) (r : Nat) (s : Arr2 K × Arr2 K) :
    Res (Arr2 K × Arr2 K) := do
  let a ← s.1.wr 0 0 1
  let t ← forLoop (order wt p ndu r) 1 n ⟨a, s.2, 0, 1⟩
  pure (t.a, t.derivs)

theorem ubs_order (p : Nat) (ndu : Arr2 K) (r k : Nat) (s : UBS.CoefState K) :
    UBS.orderStep p ndu r k s = order (fun pk _ => .ok (1 / ((pk + 1 : Int) : K))) p ndu r k s := by
  have e1 : ∀ rk pk s1 s2 : Int, (UBS.coefInner ndu rk pk s1 s2 : Nat → Arr2 K × K → _) =
      inner (fun _ => .ok (1 / ((pk + 1 : Int) : K))) ndu rk pk s1 s2 := by
    intro rk pk s1 s2
    funext j s
    simp only [UBS.coefInner, inner, Res.ok_bind]
    congr 1; funext x; congr 1; funext y; rw [← div_eq_mul_one_div]
  have e2 : ∀ r k rk pk s1 s2 : Int, (UBS.coefFirst ndu r k rk pk s1 s2 : Arr2 K → _) =
      first (fun _ => .ok (1 / ((pk + 1 : Int) : K))) ndu r k rk pk s1 s2 := by
    intro r k rk pk s1 s2
    funext a
    simp only [UBS.coefFirst, first, Res.ok_bind]
    split
    · congr 1; funext x; rw [← div_eq_mul_one_div]
    · rfl
  have e3 : ∀ r k pk s1 s2 : Int, (UBS.coefLast ndu r k pk s1 s2 : Arr2 K × K → _) =
      last (fun _ => .ok (1 / ((pk + 1 : Int) : K))) ndu r k pk s1 s2 := by
    intro r k pk s1 s2
    funext a
    simp only [UBS.coefLast, last, Res.ok_bind]
    split
    · congr 1; funext x; rw [← div_eq_mul_one_div]
    · rfl
  simp only [UBS.orderStep, order, e1, e2, e3]

theorem ubs_spline (p n : Nat) (ndu : Arr2 K) :
    UBS.splineStep p n ndu = spline (fun pk _ => .ok (1 / ((pk + 1 : Int) : K))) p n ndu := by
  funext r s
  have : UBS.orderStep p ndu r = order (fun pk _ => .ok (1 / ((pk + 1 : Int) : K))) p ndu r := by
    funext k s; exact ubs_order p ndu r k s
  simp only [UBS.splineStep, spline, this]

theorem nubs_spline (p n : Nat) (ndu : Arr2 K) :
    NUBS.splineStep p n ndu = spline (fun pk i => ndu.rd i (pk + 1)) p n ndu := rfl

/-! ## What they compute -/

/-- The entries needed at the order `k` for the B-spline `r`. -/
def Need (p r k j : Nat) : Prop := k ≤ r + j ∧ j ≤ k ∧ r + j ≤ p

/-- The column `col` of the array `a` contains the coefficients needed. -/
structure Coefs (a : Arr2 K) (p r k : Nat) (col : Int) (A : Nat → K) : Prop where
  rows : a.rows = p + 1
  cols : a.cols = 2
  val : ∀ j, Need p r k j → a.val j col = some (A j)

/-- The data of the loops: dimensions of `ndu`, its entries `P`, the weights `w` and the coefficients. -/
structure Data (wt : Int → Int → Res K) (p : Nat) (ndu : Arr2 K) (r : Nat) (P w : Nat → Nat → K) : Prop where
  rows : ndu.rows = p + 1
  cols : ndu.cols = p + 1
  entry : ∀ k j, k ≤ p → Need p r k j →
    ndu.val ((p : Int) - k) ((r : Int) - k + j) = some (P k j)
  zero : ∀ k j, k ≤ p → j ≤ k → ¬ Need p r k j → P k j = 0
  weight : ∀ k j, 1 ≤ k → k ≤ p → Need p r k j → wt ((p : Int) - k) ((r : Int) - k + j) = .ok (w k j)

theorem order_ok {wt : Int → Int → Res K} {p : Nat} {ndu : Arr2 K} {r : Nat} {P w : Nat → Nat → K}
    (h : Data wt p ndu r P w) (hr : r ≤ p) (k : Nat) (hk : k + 1 ≤ p) (s : UBS.CoefState K)
    (hs1 : 0 ≤ s.s1 ∧ s.s1 ≤ 1) (hs2 : s.s2 = 1 - s.s1)
    (hA : Coefs s.a p r k s.s1 (Spec.dcoef w k))
    (hdr : s.derivs.rows = p + 1) (hdc : k + 1 < s.derivs.cols) :
    ∃ a, order wt p ndu r (k + 1) s =
        .ok ⟨a, s.derivs.set r (k + 1) (∑ j ∈ Finset.range (k + 2), Spec.dcoef w (k + 1) j * P (k + 1) j),
          s.s2, s.s1⟩ ∧
      Coefs a p r (k + 1) s.s2 (Spec.dcoef w (k + 1)) := by
  obtain ⟨a0, derivs, s1, s2⟩ := s
  simp only at hs1 hs2 hA hdr hdc ⊢
  have hne : s1 ≠ s2 := by omega
  set A := Spec.dcoef w k with hAdef
  set B := Spec.dcoef w (k + 1) with hBdef
  have hB : ∀ j, B j = (A j - if j = 0 then 0 else A (j - 1)) * w (k + 1) j := fun j => rfl
  have hA0 : ∀ j, k < j → A j = 0 := fun j hj => Spec.dcoef_zero w k j hj
  have hrk : (r : Int) - ((k + 1 : Nat) : Int) = (r : Int) - k - 1 := by push_cast; ring
  -- the first block
  obtain ⟨f, ef, hf1, hf2, hf3⟩ : ∃ f : Arr2 K × K,
      first (wt ((p : Int) - (k + 1 : Nat))) ndu r ((k + 1 : Nat) : Int) ((r : Int) - (k + 1 : Nat))
        ((p : Int) - (k + 1 : Nat)) s1 s2 a0 = .ok f ∧
      Coefs f.1 p r k s1 A ∧
      (k + 1 ≤ r → f.1.val 0 s2 = some (B 0)) ∧
      f.2 = ∑ j ∈ Finset.range (if k + 1 ≤ r then 1 else k + 1 - r), B j * P (k + 1) j := by
    by_cases hkr : k + 1 ≤ r
    · have hkr' : ((k + 1 : Nat) : Int) ≤ (r : Int) := by exact_mod_cast hkr
      have n0 : Need p r (k + 1) 0 := ⟨by omega, by omega, by omega⟩
      have n0' : Need p r k 0 := ⟨by omega, by omega, by omega⟩
      have ew := h.weight (k + 1) 0 (by omega) hk n0
      have ee := h.entry (k + 1) 0 hk n0
      rw [Int.ofNat_zero, add_zero] at ew ee
      have ea : a0.val 0 s1 = some (A 0) := hA.val 0 n0'
      rw [first, if_pos hkr', Arr2.rd_ok ⟨le_refl _, by rw [hA.rows]; omega, hs1.1, by rw [hA.cols]; omega⟩ ea,
        Res.ok_bind, ew, Res.ok_bind,
        Arr2.wr_ok ⟨le_refl _, by rw [hA.rows]; omega, by omega, by rw [hA.cols]; omega⟩, Res.ok_bind,
        Arr2.rd_ok ⟨le_refl _, by rw [Arr2.set_rows, hA.rows]; omega, by omega,
          by rw [Arr2.set_cols, hA.cols]; omega⟩ (by rw [Arr2.set_val, if_pos ⟨rfl, rfl⟩]), Res.ok_bind,
        Arr2.rd_ok ⟨by omega, by rw [h.rows]; omega, by omega, by rw [h.cols]; omega⟩ ee]
      have hb0 : A 0 * w (k + 1) 0 = B 0 := by rw [hB]; simp
      refine ⟨_, rfl, ⟨hA.rows, hA.cols, fun j hj => ?_⟩, fun _ => ?_, ?_⟩
      · rw [Arr2.set_val, if_neg (fun e => hne e.2)]; exact hA.val j hj
      · rw [Arr2.set_val, if_pos ⟨rfl, rfl⟩, hb0]
      · simp only [if_pos hkr, Finset.sum_range_one, hb0]
    · have hkr' : ¬ ((k + 1 : Nat) : Int) ≤ (r : Int) := by exact_mod_cast hkr
      rw [first, if_neg hkr']
      refine ⟨_, rfl, hA, fun e => absurd e hkr, ?_⟩
      rw [if_neg hkr]
      refine (Finset.sum_eq_zero fun j hj => ?_).symm
      have := Finset.mem_range.1 hj
      rw [h.zero (k + 1) j hk (by omega) (fun e => by have := e.1; omega), mul_zero]
  -- the bounds of the loop
  set lo := if k + 1 ≤ r then 1 else k + 1 - r with hlo
  set hi := if k + 1 ≤ p - r + 1 then k + 1 else p - r + 1 with hhi
  have e1 : (if (-1 : Int) < (r : Int) - (k + 1 : Nat) then (1 : Int) else
      -((r : Int) - (k + 1 : Nat))).toNat = lo := by
    rw [hlo]; split <;> split <;> omega
  have e2 : (if (r : Int) - 1 ≤ (p : Int) - (k + 1 : Nat) then ((k + 1 : Nat) : Int) else
      (p : Int) - r + 1).toNat = hi := by
    rw [hhi]; split <;> split <;> omega
  have hle : lo ≤ hi := by rw [hlo, hhi]; split <;> split <;> omega
  have hlo1 : 1 ≤ lo := by rw [hlo]; split <;> omega
  have hlon : ∀ j, lo ≤ j → k + 1 ≤ r + j := by rw [hlo]; intro j; split <;> omega
  have hhin : ∀ j, j < hi → j ≤ k ∧ r + j ≤ p := by rw [hhi]; intro j; split <;> omega
  have hlon' : ∀ j, j < lo → k + 1 ≤ r + j → j = 0 ∧ k + 1 ≤ r := by
    rw [hlo]; intro j; split <;> omega
  have hhin' : ∀ j, hi ≤ j → j ≤ k + 1 → r + j ≤ p → j = k + 1 ∧ hi = k + 1 := by
    rw [hhi]; intro j; split <;> omega
  -- the loop
  obtain ⟨g, eg, hg1, hg2, hg3⟩ := forLoop_inv
    (f := inner (wt ((p : Int) - (k + 1 : Nat))) ndu ((r : Int) - (k + 1 : Nat))
      ((p : Int) - (k + 1 : Nat)) s1 s2)
    (fun j (s : Arr2 K × K) => Coefs s.1 p r k s1 A ∧
      (∀ i, Need p r (k + 1) i → i < j → s.1.val i s2 = some (B i)) ∧
      s.2 = ∑ i ∈ Finset.range j, B i * P (k + 1) i)
    (hi - lo) lo f
    ⟨hf1, fun i hi hi' => by
      obtain ⟨rfl, h0⟩ := hlon' i hi' hi.1
      exact hf2 h0, hf3⟩
    (by
      rintro j ⟨a, d⟩ hj1 hj2 ⟨h1, h2, h3⟩
      simp only at h1 h2 h3
      have hn1 := hlon j hj1
      have hn2 := hhin j (by omega)
      have n1 : Need p r (k + 1) j := ⟨hn1, by omega, hn2.2⟩
      have n2 : Need p r k j := ⟨by omega, hn2.1, hn2.2⟩
      have n3 : Need p r k (j - 1) := ⟨by omega, by omega, by omega⟩
      have cj : ((j : Int) - 1) = ((j - 1 : Nat) : Int) := by omega
      simp only [inner]
      rw [Arr2.rd_ok ⟨by omega, by rw [h1.rows]; omega, hs1.1, by rw [h1.cols]; omega⟩ (h1.val j n2),
        Res.ok_bind, cj,
        Arr2.rd_ok ⟨by omega, by rw [h1.rows]; omega, hs1.1, by rw [h1.cols]; omega⟩ (h1.val _ n3),
        Res.ok_bind, h.weight (k + 1) j (by omega) hk n1, Res.ok_bind,
        Arr2.wr_ok ⟨by omega, by rw [h1.rows]; omega, by omega, by rw [h1.cols]; omega⟩, Res.ok_bind,
        Arr2.rd_ok ⟨by omega, by rw [Arr2.set_rows, h1.rows]; omega, by omega,
          by rw [Arr2.set_cols, h1.cols]; omega⟩ (by rw [Arr2.set_val, if_pos ⟨rfl, rfl⟩]), Res.ok_bind,
        Arr2.rd_ok ⟨by omega, by rw [h.rows]; omega, by omega, by rw [h.cols]; omega⟩
          (h.entry (k + 1) j hk n1)]
      have hb : (A j - A (j - 1)) * w (k + 1) j = B j := by rw [hB, if_neg (by omega)]
      rw [hb]
      refine ⟨_, rfl, ⟨h1.rows, h1.cols, fun i hi => ?_⟩, fun i hi hi' => ?_, ?_⟩
      · rw [Arr2.set_val, if_neg (fun e => hne e.2)]; exact h1.val i hi
      · rw [Arr2.set_val]
        by_cases hij : i = j
        · subst hij; rw [if_pos ⟨rfl, rfl⟩]
        · rw [if_neg (fun e => hij (by exact_mod_cast e.1))]; exact h2 i hi (by omega)
      · rw [Finset.sum_range_succ, h3])
  rw [show lo + (hi - lo) = hi by omega] at hg2 hg3
  -- the last block
  obtain ⟨l, el, hl1, hl2⟩ : ∃ l : Arr2 K × K,
      last (wt ((p : Int) - (k + 1 : Nat))) ndu r ((k + 1 : Nat) : Int) ((p : Int) - (k + 1 : Nat))
        s1 s2 g = .ok l ∧ Coefs l.1 p r (k + 1) s2 B ∧
      l.2 = ∑ j ∈ Finset.range (k + 2), B j * P (k + 1) j := by
    by_cases hrp : r + (k + 1) ≤ p
    · have hrp' : (r : Int) ≤ (p : Int) - (k + 1 : Nat) := by omega
      have n1 : Need p r (k + 1) (k + 1) := ⟨by omega, by omega, by omega⟩
      have n2 : Need p r k k := ⟨by omega, by omega, by omega⟩
      have hhi' : hi = k + 1 := by rw [hhi, if_pos (by omega)]
      have ck : (((k + 1 : Nat) : Int) - 1) = (k : Int) := by omega
      have cr : (r : Int) - (k + 1 : Nat) + (k + 1 : Nat) = r := by omega
      have ew := h.weight (k + 1) (k + 1) (by omega) hk n1
      have ee := h.entry (k + 1) (k + 1) hk n1
      rw [cr] at ew ee
      have hb : -A k * w (k + 1) (k + 1) = B (k + 1) := by
        rw [hB, if_neg (by omega), hA0 (k + 1) (by omega), Nat.add_sub_cancel, zero_sub]
      rw [last, if_pos hrp', ck,
        Arr2.rd_ok ⟨by omega, by rw [hg1.rows]; omega, hs1.1, by rw [hg1.cols]; omega⟩ (hg1.val k n2),
        Res.ok_bind, ew, Res.ok_bind,
        Arr2.wr_ok ⟨by omega, by rw [hg1.rows]; omega, by omega, by rw [hg1.cols]; omega⟩, Res.ok_bind,
        Arr2.rd_ok ⟨by omega, by rw [Arr2.set_rows, hg1.rows]; omega, by omega,
          by rw [Arr2.set_cols, hg1.cols]; omega⟩ (by rw [Arr2.set_val, if_pos ⟨rfl, rfl⟩]), Res.ok_bind,
        Arr2.rd_ok ⟨by omega, by rw [h.rows]; omega, by omega, by rw [h.cols]; omega⟩ ee, hb]
      refine ⟨_, rfl, ⟨hg1.rows, hg1.cols, fun i hi => ?_⟩, ?_⟩
      · rw [Arr2.set_val]
        by_cases hij : i = k + 1
        · subst hij; rw [if_pos ⟨rfl, rfl⟩]
        · rw [if_neg (fun e => hij (by exact_mod_cast e.1))]
          exact hg2 i hi (by have := hi.2.1; omega)
      · rw [Finset.sum_range_succ _ (k + 1), hg3, hhi']
    · have hrp' : ¬ (r : Int) ≤ (p : Int) - (k + 1 : Nat) := by omega
      rw [last, if_neg hrp']
      refine ⟨_, rfl, ⟨hg1.rows, hg1.cols, fun i hi => ?_⟩, ?_⟩
      · refine hg2 i hi ?_
        by_contra hc
        have := hhin' i (by omega) hi.2.1 hi.2.2
        have := hi.2.2
        omega
      · have hhik : hi ≤ k + 2 := by rw [hhi]; split <;> omega
        rw [hg3]
        refine Finset.sum_subset (Finset.range_mono hhik) (fun j hj hj' => ?_)
        have h1 := Finset.mem_range.1 hj
        have h2 : hi ≤ j := by simpa using hj'
        rw [h.zero (k + 1) j hk (by omega) (fun e => ?_), mul_zero]
        have := hhin' j h2 e.2.1 e.2.2
        have := e.2.2
        omega
  refine ⟨l.1, ?_, hl1⟩
  simp only [order, ef, Res.ok_bind, e1, e2, eg, el, hl2]
  rw [Arr2.wr_ok ⟨by omega, by rw [hdr]; omega, by omega, by omega⟩]
  rfl

theorem spline_ok {wt : Int → Int → Res K} {p : Nat} {ndu : Arr2 K} {r : Nat} {P w : Nat → Nat → K}
    (h : Data wt p ndu r P w) (hr : r ≤ p) (n : Nat) (hn : n ≤ p) (s : Arr2 K × Arr2 K)
    (har : s.1.rows = p + 1) (hac : s.1.cols = 2) (hdr : s.2.rows = p + 1) (hdc : s.2.cols = n + 1) :
    ∃ t, spline wt p n ndu r s = .ok t ∧ t.1.rows = p + 1 ∧ t.1.cols = 2 ∧ t.2.rows = p + 1 ∧
      t.2.cols = n + 1 ∧
      (∀ i k : Nat, t.2.val i k = if i = r ∧ 1 ≤ k ∧ k ≤ n then
        some (∑ j ∈ Finset.range (k + 1), Spec.dcoef w k j * P k j) else s.2.val i k) := by
  obtain ⟨a, d⟩ := s
  simp only at har hac hdr hdc ⊢
  obtain ⟨t, e, _, _, h3, h4, h5, h6⟩ := forLoop_inv (f := order wt p ndu r)
    (fun k (s : UBS.CoefState K) => (0 ≤ s.s1 ∧ s.s1 ≤ 1) ∧ s.s2 = 1 - s.s1 ∧
      Coefs s.a p r (k - 1) s.s1 (Spec.dcoef w (k - 1)) ∧ s.derivs.rows = p + 1 ∧
      s.derivs.cols = n + 1 ∧
      (∀ i l : Nat, s.derivs.val i l = if i = r ∧ 1 ≤ l ∧ l < k then
        some (∑ j ∈ Finset.range (l + 1), Spec.dcoef w l j * P l j) else d.val i l))
    n 1 ⟨a.set 0 0 1, d, 0, 1⟩
    ⟨⟨le_refl _, by simp⟩, by simp, ⟨har, hac, fun j hj => by
      have h1 := hj.2.1
      obtain rfl : j = 0 := by omega
      rw [Arr2.set_val, if_pos ⟨by simp, rfl⟩]; simp [Spec.dcoef]⟩, hdr, hdc, fun i l => by
      rw [if_neg (by omega)]⟩
    (by
      rintro k s hk hk' ⟨h1, h2, h3, h4, h5, h6⟩
      obtain ⟨k, rfl⟩ : ∃ l, k = l + 1 := ⟨k - 1, by omega⟩
      simp only [Nat.add_sub_cancel] at h3 ⊢
      obtain ⟨a', e, h7⟩ := order_ok h hr k (by omega) s h1 h2 h3 h4 (by omega)
      refine ⟨_, e, ⟨by simp only; omega, by simp only; omega⟩, by simp only; omega, h7, h4, h5,
        fun i l => ?_⟩
      rw [Arr2.set_val]
      by_cases hil : (i : Int) = r ∧ (l : Int) = (k : Int) + 1
      · obtain ⟨rfl, rfl⟩ : i = r ∧ l = k + 1 := by omega
        rw [if_pos ⟨rfl, rfl⟩, if_pos (by omega)]
      · rw [if_neg (by push_cast; exact hil), h6]
        by_cases hc : i = r ∧ 1 ≤ l ∧ l < k + 1
        · rw [if_pos hc, if_pos (by omega)]
        · rw [if_neg hc, if_neg (fun e => hc ⟨e.1, e.2.1, by
            rcases Nat.lt_or_ge l (k + 1) with h | h
            · exact h
            · exact absurd ⟨by exact_mod_cast e.1, by omega⟩ hil⟩)])
  refine ⟨(t.a, t.derivs), ?_, h3.rows, h3.cols, h4, h5, fun i k => ?_⟩
  · simp only [spline]
    rw [Arr2.wr_ok ⟨le_refl _, by rw [har]; omega, le_refl _, by rw [hac]; omega⟩, Res.ok_bind, e]
    rfl
  · rw [h6]
    by_cases hc : i = r ∧ 1 ≤ k ∧ k ≤ n
    · rw [if_pos hc, if_pos (by omega)]
    · rw [if_neg hc, if_neg (by omega)]

/-- All the B-splines. -/
theorem splines_ok {wt : Int → Int → Res K} {p : Nat} {ndu : Arr2 K} {P w : Nat → Nat → Nat → K}
    (h : ∀ r, r ≤ p → Data wt p ndu r (P r) (w r)) (n : Nat) (hn : n ≤ p) (s : Arr2 K × Arr2 K)
    (har : s.1.rows = p + 1) (hac : s.1.cols = 2) (hdr : s.2.rows = p + 1) (hdc : s.2.cols = n + 1) :
    ∃ t, forLoop (spline wt p n ndu) 0 (p + 1) s = .ok t ∧ t.2.rows = p + 1 ∧ t.2.cols = n + 1 ∧
      (∀ i k : Nat, t.2.val i k = if i ≤ p ∧ 1 ≤ k ∧ k ≤ n then
        some (∑ j ∈ Finset.range (k + 1), Spec.dcoef (w i) k j * P i k j) else s.2.val i k) := by
  obtain ⟨t, e, _, _, h1, h2, h3⟩ := forLoop_inv (f := spline wt p n ndu)
    (fun r (t : Arr2 K × Arr2 K) => t.1.rows = p + 1 ∧ t.1.cols = 2 ∧ t.2.rows = p + 1 ∧
      t.2.cols = n + 1 ∧
      (∀ i k : Nat, t.2.val i k = if i < r ∧ 1 ≤ k ∧ k ≤ n then
        some (∑ j ∈ Finset.range (k + 1), Spec.dcoef (w i) k j * P i k j) else s.2.val i k))
    (p + 1) 0 s ⟨har, hac, hdr, hdc, fun i k => by rw [if_neg (by omega)]⟩
    (by
      rintro r t - hr ⟨h1, h2, h3, h4, h5⟩
      obtain ⟨t', e, g1, g2, g3, g4, g5⟩ := spline_ok (h r (by omega)) (by omega) n hn t h1 h2 h3 h4
      refine ⟨t', e, g1, g2, g3, g4, fun i k => ?_⟩
      rw [g5, h5]
      by_cases hir : i = r ∧ 1 ≤ k ∧ k ≤ n
      · rw [if_pos hir, if_pos (by omega), hir.1]
      · rw [if_neg hir]
        by_cases hc : i < r ∧ 1 ≤ k ∧ k ≤ n
        · rw [if_pos hc, if_pos (by omega)]
        · rw [if_neg hc, if_neg (by omega)])
  refine ⟨t, e, h1, h2, fun i k => ?_⟩
  rw [h3]
  by_cases hc : i ≤ p ∧ 1 ≤ k ∧ k ≤ n
  · rw [if_pos hc, if_pos (by omega)]
  · rw [if_neg hc, if_neg (by omega)]

/-! ## The copy of the values and the multiplication by the factors -/

theorem copy_ok {p q n : Nat} {ndu : Arr2 K} {T : Nat → K} (hp : p < q) (hr : ndu.rows = q) (hc : ndu.cols = q)
    (hT : ∀ r : Nat, r ≤ p → ndu.val p r = some (T r)) (hq : q = p + 1) (d : Arr2 K) (hdr : d.rows = q)
    (hdc : d.cols = n + 1) :
    ∃ d', forLoop (UBS.copyZeroth p ndu) 0 q d = .ok d' ∧ d'.rows = q ∧ d'.cols = n + 1 ∧
      ∀ r : Nat, r ≤ p → d'.val r 0 = some (T r) := by
  obtain ⟨d', e, h1, h2, h3⟩ := forLoop_inv (f := UBS.copyZeroth p ndu)
    (fun j (d : Arr2 K) => d.rows = q ∧ d.cols = n + 1 ∧ ∀ r : Nat, r < j → d.val r 0 = some (T r))
    q 0 d ⟨hdr, hdc, fun r hr => absurd hr (by omega)⟩
    (by
      rintro j d - hj ⟨h1, h2, h3⟩
      simp only [UBS.copyZeroth]
      rw [Arr2.rd_ok ⟨by omega, by rw [hr]; omega, by omega, by rw [hc]; omega⟩ (hT j (by omega)),
        Res.ok_bind, Arr2.wr_ok ⟨by omega, by rw [h1]; omega, le_refl _, by rw [h2]; omega⟩]
      refine ⟨_, rfl, h1, h2, fun r hr => ?_⟩
      rw [Arr2.set_val]
      by_cases hrj : r = j
      · subst hrj; rw [if_pos ⟨rfl, rfl⟩]
      · rw [if_neg (fun e => hrj (by exact_mod_cast e.1))]; exact h3 r (by omega))
  exact ⟨d', e, h1, h2, fun r hr => h3 r (by omega)⟩

theorem scaleEntry_ok {k m N : Nat} {d0 : Arr2 K} {D : Nat → K} (f : K) (hr : d0.rows = m)
    (hc : d0.cols = N) (hk : k < N) (hD : ∀ i : Nat, i < m → d0.val i k = some (D i)) :
    ∃ d, forLoop (UBS.scaleEntry k f) 0 m d0 = .ok d ∧ d.rows = m ∧ d.cols = N ∧
      (∀ i : Nat, i < m → d.val i k = some (D i * f)) ∧
      (∀ i l : Nat, l ≠ k → d.val i l = d0.val i l) := by
  obtain ⟨d, e, h1, h2, h3, h4, h5⟩ := forLoop_inv (f := UBS.scaleEntry k f)
    (fun j (d : Arr2 K) => d.rows = m ∧ d.cols = N ∧ (∀ i : Nat, i < j → d.val i k = some (D i * f)) ∧
      (∀ i : Nat, j ≤ i → i < m → d.val i k = some (D i)) ∧
      (∀ i l : Nat, l ≠ k → d.val i l = d0.val i l))
    m 0 d0 ⟨hr, hc, fun i hi => absurd hi (by omega), fun i _ hi => hD i hi, fun _ _ _ => rfl⟩
    (by
      rintro j d - hj ⟨h1, h2, h3, h4, h5⟩
      simp only [UBS.scaleEntry]
      rw [Arr2.rd_ok ⟨by omega, by rw [h1]; omega, by omega, by rw [h2]; omega⟩
        (h4 j (le_refl _) (by omega)), Res.ok_bind,
        Arr2.wr_ok ⟨by omega, by rw [h1]; omega, by omega, by rw [h2]; omega⟩]
      refine ⟨_, rfl, h1, h2, fun i hi => ?_, fun i hi hi' => ?_, fun i l hl => ?_⟩
      · rw [Arr2.set_val]
        by_cases hij : i = j
        · subst hij; rw [if_pos ⟨rfl, rfl⟩]
        · rw [if_neg (fun e => hij (by exact_mod_cast e.1))]; exact h3 i (by omega)
      · rw [Arr2.set_val, if_neg (fun e => by have := e.1; omega)]; exact h4 i (by omega) hi'
      · rw [Arr2.set_val, if_neg (fun e => hl (by exact_mod_cast e.2))]; exact h5 i l hl)
  exact ⟨d, e, h1, h2, fun i hi => h3 i (by omega), h5⟩

theorem ubs_scale_ok {p n : Nat} {d0 : Arr2 K} {D : Nat → Nat → K} (q : K) (hr : d0.rows = p + 1)
    (hc : d0.cols = n + 1) (hn : n ≤ p)
    (hD : ∀ i k : Nat, i ≤ p → k ≤ n → d0.val i k = some (D i k)) :
    ∃ s, forLoop (UBS.scaleStep p q) 1 n (d0, (p : K) * q) = .ok s ∧ s.1.rows = p + 1 ∧
      s.1.cols = n + 1 ∧
      ∀ i k : Nat, i ≤ p → k ≤ n →
        s.1.val i k = some (D i k * (((p.descFactorial k : Nat) : K) * q ^ k)) := by
  obtain ⟨s, e, h1, h2, h3, h4⟩ := forLoop_inv (f := UBS.scaleStep p q)
    (fun k (s : Arr2 K × K) => s.1.rows = p + 1 ∧ s.1.cols = n + 1 ∧
      s.2 = ((p.descFactorial k : Nat) : K) * q ^ k ∧
      (∀ i l : Nat, i ≤ p → l ≤ n → s.1.val i l = some (if l < k then
        D i l * (((p.descFactorial l : Nat) : K) * q ^ l) else D i l)))
    n 1 (d0, (p : K) * q)
    ⟨hr, hc, by simp, fun i l hi hl => by
      rw [hD i l hi hl]
      split
      · obtain rfl : l = 0 := by omega
        simp
      · rfl⟩
    (by
      rintro k ⟨d, f⟩ hk hk' ⟨h1, h2, h3, h4⟩
      simp only at h1 h2 h3 h4
      obtain ⟨d', e, g1, g2, g3, g4⟩ := scaleEntry_ok (k := k) (m := p + 1) (N := n + 1) (D := fun i => D i k) f h1 h2
        (by omega) (fun i hi => by rw [h4 i k (by omega) (by omega), if_neg (by omega)])
      simp only [UBS.scaleStep, h1, e, Res.ok_bind, Res.pure_eq]
      refine ⟨_, rfl, g1, g2, ?_, fun i l hi hl => ?_⟩
      · simp only [h3]
        rw [Nat.descFactorial_succ, Nat.cast_mul, Nat.cast_sub (by omega)]
        ring
      · by_cases hlk : l = k
        · subst hlk
          rw [g3 i (by omega), if_pos (by omega), h3]
        · rw [g4 i l hlk, h4 i l hi hl]
          by_cases hlt : l < k
          · rw [if_pos hlt, if_pos (by omega)]
          · rw [if_neg hlt, if_neg (by omega)])
  refine ⟨s, e, h1, h2, fun i k hi hk => ?_⟩
  rw [h4 i k hi hk, if_pos (by omega)]

/-- The factors of the non-uniform loop: an `int`, with the product taken modulo `2^32`. -/
def factor (p k : Nat) : Int := (BitVec.ofNat 32 (p.descFactorial k)).toInt

theorem factor_eq {p k : Nat} (h : p.descFactorial k < 2 ^ 31) : factor p k = p.descFactorial k := by
  rw [factor, BitVec.toInt_eq_toNat_of_lt] <;> rw [BitVec.toNat_ofNat, Nat.mod_eq_of_lt (by omega)]
  omega

theorem int32_mul (b : BitVec 32) (p k : Nat) (hk : k ≤ p) :
    Periodic.toInt32 (BitVec.ofInt 64 b.toInt * (BitVec.ofNat 64 p - BitVec.ofNat 64 k)) =
      b * BitVec.ofNat 32 (p - k) := by
  rw [One.ofNat_sub hk, Periodic.toInt32]
  show BitVec.setWidth 32 (b.signExtend 64 * _) = _
  rw [BitVec.setWidth_mul _ _ (by omega), BitVec.setWidth_ofNat_of_le (by omega)]
  congr 1
  ext i hi
  simp only [BitVec.getElem_setWidth, BitVec.getLsbD_signExtend]
  simp [hi, show i < 64 by omega]

theorem nubs_scale_ok {p n : Nat} {d0 : Arr2 K} {D : Nat → Nat → K} (hr : d0.rows = p + 1)
    (hc : d0.cols = n + 1) (hn : n ≤ p)
    (hD : ∀ i k : Nat, i ≤ p → k ≤ n → d0.val i k = some (D i k)) :
    ∃ s, forLoop (NUBS.scaleStep p) 1 n (d0, BitVec.ofNat 32 p) = .ok s ∧ s.1.rows = p + 1 ∧
      s.1.cols = n + 1 ∧
      ∀ i k : Nat, i ≤ p → k ≤ n → s.1.val i k = some (D i k * ((factor p k : Int) : K)) := by
  obtain ⟨s, e, h1, h2, h3, h4⟩ := forLoop_inv (f := NUBS.scaleStep p)
    (fun k (s : Arr2 K × BitVec 32) => s.1.rows = p + 1 ∧ s.1.cols = n + 1 ∧
      s.2 = BitVec.ofNat 32 (p.descFactorial k) ∧
      (∀ i l : Nat, i ≤ p → l ≤ n → s.1.val i l = some (if l < k then
        D i l * ((factor p l : Int) : K) else D i l)))
    n 1 (d0, BitVec.ofNat 32 p)
    ⟨hr, hc, by simp, fun i l hi hl => by
      rw [hD i l hi hl]
      split
      · obtain rfl : l = 0 := by omega
        simp [factor]
      · rfl⟩
    (by
      rintro k ⟨d, f⟩ hk hk' ⟨h1, h2, h3, h4⟩
      simp only at h1 h2 h3 h4
      obtain ⟨d', e, g1, g2, g3, g4⟩ := scaleEntry_ok (k := k) (m := p + 1) (N := n + 1) (D := fun i => D i k)
        ((f.toInt : Int) : K) h1 h2
        (by omega) (fun i hi => by rw [h4 i k (by omega) (by omega), if_neg (by omega)])
      simp only [NUBS.scaleStep, h1, e, Res.ok_bind, Res.pure_eq]
      refine ⟨_, rfl, g1, g2, ?_, fun i l hi hl => ?_⟩
      · simp only [h3]
        rw [int32_mul _ _ _ (by omega), Nat.descFactorial_succ, ← BitVec.ofNat_mul, Nat.mul_comm]
      · by_cases hlk : l = k
        · subst hlk
          rw [g3 i (by omega), if_pos (by omega), h3]; rfl
        · rw [g4 i l hlk, h4 i l hi hl]
          by_cases hlt : l < k
          · rw [if_pos hlt, if_pos (by omega)]
          · rw [if_neg hlt, if_neg (by omega)])
  refine ⟨s, e, h1, h2, fun i k hi hk => ?_⟩
  rw [h4 i k hi hk, if_pos (by omega)]

end NDer

end DDC

namespace DDC

set_option linter.unusedSectionVars false

open One

variable {K : Type} [Field K] [LinearOrder K]

/-! ## The triangle stored in `ndu` -/

/-- The lines of the triangle up to `j` are stored in the array. -/
structure Lines (a : Arr2 K) (N : Nat) (T : Nat → Nat → K) (j : Nat) : Prop where
  rows : a.rows = N
  cols : a.cols = N
  val : ∀ i r : Nat, i ≤ j → r ≤ i → a.val i r = some (T i r)

theorem UBS.nduOuter_ok (o s0 : K) (j : Nat) (a : Arr2 K) (n : Nat) (hn : j + 1 < n)
    (h : Lines a n (tri (uL o) (uR o) s0) j) :
    ∃ a', UBS.nduOuter o (j + 1) a = .ok a' ∧ Lines a' n (tri (uL o) (uR o) s0) (j + 1) := by
  obtain ⟨s, e, h1, h1', h2, h3, h4, h5⟩ := forLoop_inv
    (f := UBS.nduInner (j + 1))
    (fun r (s : Arr2 K × K × K) => s.1.rows = n ∧ s.1.cols = n ∧
      (∀ i : Nat, i < r → s.1.val (j + 1 : Nat) i = some (tri (uL o) (uR o) s0 (j + 1) i)) ∧
      (∀ i r : Nat, i ≤ j → r ≤ i → s.1.val i r = some (tri (uL o) (uR o) s0 i r)) ∧
      s.2.1 = -o + (r : K) ∧
      s.2.2 = if r = 0 then 0 else uL o j (r - 1) * tri (uL o) (uR o) s0 j (r - 1))
    (j + 1) 0 (a, -o, 0) ⟨h.rows, h.cols, fun i hi => absurd hi (by omega), h.val, by simp, by simp⟩
    (by
      rintro r ⟨a, xx, sv⟩ - hr ⟨h1, h1', h2, h3, h4, h5⟩
      simp only at h1 h1' h2 h3 h4 h5
      have hr' : r ≤ j := by omega
      have cj : ((j + 1 : Nat) : Int) - 1 = (j : Int) := by omega
      simp only [UBS.nduInner]
      rw [cj, Arr2.rd_ok ⟨by omega, by omega, by omega, by omega⟩ (h3 j r (le_refl _) hr'), Res.ok_bind,
        Arr2.wr_ok ⟨by omega, by omega, by omega, by omega⟩, Res.ok_bind]
      refine ⟨_, rfl, h1, h1', ?_, ?_, ?_, ?_⟩
      · intro i hi
        rw [Arr2.set_val]
        by_cases hir : i = r
        · subst i
          rw [if_pos ⟨rfl, rfl⟩]
          congr 1
          rw [tri, if_neg (show r ≠ j + 1 by omega), h5, h4, uR]
          congr 1
          push_cast
          ring
        · rw [if_neg (fun e => hir (by exact_mod_cast e.2))]; exact h2 i (by omega)
      · intro i l hi hl
        rw [Arr2.set_val, if_neg (fun e => by have := e.1; omega)]
        exact h3 i l hi hl
      · rw [h4]; push_cast; ring
      · rw [if_neg (by omega), uL, h4]
        simp only [Nat.add_sub_cancel]
        push_cast
        ring)
  simp only [UBS.nduOuter, e, Res.ok_bind]
  rw [Arr2.wr_ok ⟨by omega, by omega, by omega, by omega⟩]
  refine ⟨_, rfl, h1, h1', fun i r hi hr => ?_⟩
  rw [Arr2.set_val]
  by_cases hij : (i : Int) = (j + 1 : Nat) ∧ (r : Int) = (j + 1 : Nat)
  · rw [if_pos hij]
    obtain ⟨rfl, rfl⟩ : i = j + 1 ∧ r = j + 1 := by omega
    congr 1
    rw [tri, if_neg (by omega), if_pos rfl, add_zero, h5, if_neg (by omega)]
    simp
  · rw [if_neg hij]
    rcases Nat.lt_or_eq_of_le hi with h | rfl
    · exact h3 i r (by omega) hr
    · exact h2 r (by omega)

theorem UBS.ndu_ok (o : K) (p : Nat) :
    ∃ a, (do let ndu ← (Arr2.uninit (p + 1) (p + 1)).wr 0 0 1
             forLoop (UBS.nduOuter o) 1 p ndu) = .ok a ∧
      Lines a (p + 1) (tri (uL o) (uR o) 1) p := by
  rw [Arr2.wr_ok ⟨le_refl _, by simp [Arr2.uninit], le_refl _, by simp [Arr2.uninit]⟩,
    Res.ok_bind]
  obtain ⟨a, e, h⟩ := forLoop_inv (f := UBS.nduOuter o)
    (fun j a => Lines a (p + 1) (tri (uL o) (uR o) 1) (j - 1)) p 1
    ((Arr2.uninit (p + 1) (p + 1) : Arr2 K).set 0 0 1)
    ⟨rfl, rfl, fun i r hi hr => by
      obtain ⟨rfl, rfl⟩ : i = 0 ∧ r = 0 := by omega
      rw [Arr2.set_val, if_pos ⟨rfl, rfl⟩]; simp [tri]⟩
    (fun j a hj hj' h => by
      obtain ⟨j, rfl⟩ : ∃ k, j = k + 1 := ⟨j - 1, by omega⟩
      simp only [Nat.add_sub_cancel] at h ⊢
      exact UBS.nduOuter_ok o 1 j a (p + 1) (by omega) h)
  refine ⟨a, e, ?_⟩
  simpa using h

namespace NUBS

variable {u : NUBS K} {p n : Nat} {t : Nat → K}

/-- The upper part of `ndu`: the inverses of the knot differences. -/
def Inv (t : Nat → K) (c : Nat) (a : Arr2 K) (j : Nat) : Prop :=
  ∀ i r : Nat, i < j → r ≤ i → a.val r (i + 1 : Nat) = some (1 / (t (c + r + 1) - t (c - i + r)))

theorem nduInner_ok {x s0 : K} {c p : Nat} {left right : Arr K} {j : Nat} (hj : j < p) (hc : p ≤ c)
    (hlr : Sides t x c p left right (j + 1)) (a : Arr2 K)
    (h : Lines a (p + 1) (tri (nL t x c) (nR t x c) s0) j) (hi : Inv t c a j) :
    ∃ s, forLoop (nduInner left right j) 0 (j + 1) (a, 0) = .ok s ∧
      Lines s.1 (p + 1) (tri (nL t x c) (nR t x c) s0) j ∧
      (∀ r : Nat, r ≤ j → s.1.val (j + 1 : Nat) r = some (tri (nL t x c) (nR t x c) s0 (j + 1) r)) ∧
      Inv t c s.1 (j + 1) ∧
      s.2 = tri (nL t x c) (nR t x c) s0 (j + 1) (j + 1) := by
  obtain ⟨s, e, h1, h2, h3, h4, h5⟩ := forLoop_inv
    (f := nduInner left right j)
    (fun r (s : Arr2 K × K) => Lines s.1 (p + 1) (tri (nL t x c) (nR t x c) s0) j ∧
      (∀ i : Nat, i < r → s.1.val (j + 1 : Nat) i = some (tri (nL t x c) (nR t x c) s0 (j + 1) i)) ∧
      Inv t c s.1 j ∧
      (∀ i : Nat, i < r → s.1.val i (j + 1 : Nat) = some (1 / (t (c + i + 1) - t (c - j + i)))) ∧
      s.2 = if r = 0 then 0 else nL t x c j (r - 1) * tri (nL t x c) (nR t x c) s0 j (r - 1))
    (j + 1) 0 (a, 0) ⟨h, fun i hi => absurd hi (by omega), hi, fun i hi => absurd hi (by omega), by simp⟩
    (by
      rintro r ⟨a, sv⟩ - hr ⟨h1, h2, h3, h4, h5⟩
      simp only at h1 h2 h3 h4 h5
      have hr' : r ≤ j := by omega
      have e1 : c - (j - r) = c - j + r := by omega
      have hden : t (c + r + 1) - x + (x - t (c - j + r)) = t (c + r + 1) - t (c - j + r) := by ring
      have hrows := h1.rows
      have hcols := h1.cols
      have cj : (j : Int) + 1 = ((j + 1 : Nat) : Int) := by omega
      simp only [nduInner]
      rw [Arr.rd_ok (show r < right.size by rw [hlr.rsize]; omega) (hlr.rval r (by omega)), Res.ok_bind,
        Arr.rd_ok (show j - r < left.size by rw [hlr.lsize]; omega) (hlr.lval (j - r) (by omega)),
        Res.ok_bind, e1, hden, cj, Arr2.wr_ok ⟨by omega, by omega, by omega, by omega⟩, Res.ok_bind,
        Arr2.rd_ok ⟨by omega, by simp only [Arr2.set_rows]; omega, by omega,
          by simp only [Arr2.set_cols]; omega⟩
          (by rw [Arr2.set_val, if_neg (fun e => by have := e.2; omega)]; exact h1.val j r (le_refl _) hr'),
        Res.ok_bind,
        Arr2.rd_ok ⟨by omega, by simp only [Arr2.set_rows]; omega, by omega,
          by simp only [Arr2.set_cols]; omega⟩
          (by rw [Arr2.set_val, if_pos ⟨rfl, rfl⟩]), Res.ok_bind,
        Arr2.wr_ok ⟨by omega, by simp only [Arr2.set_rows]; omega, by omega,
          by simp only [Arr2.set_cols]; omega⟩, Res.ok_bind]
      refine ⟨_, rfl, ⟨hrows, hcols, fun i l hi hl => ?_⟩, fun i hi => ?_, fun i l hi hl => ?_,
        fun i hi => ?_, ?_⟩
      · rw [Arr2.set_val, if_neg (fun e => by have := e.1; omega), Arr2.set_val,
          if_neg (fun e => by have := e.2; omega)]
        exact h1.val i l hi hl
      · rw [Arr2.set_val]
        by_cases hir : i = r
        · subst i
          rw [if_pos ⟨rfl, rfl⟩]
          congr 1
          rw [tri, if_neg (show r ≠ j + 1 by omega), h5, nR]
          congr 1
          ring
        · rw [if_neg (fun e => hir (by exact_mod_cast e.2)), Arr2.set_val,
            if_neg (fun e => by have := e.1; omega)]
          exact h2 i (by omega)
      · rw [Arr2.set_val, if_neg (fun e => by have := e.1; omega), Arr2.set_val,
          if_neg (fun e => by have := e.2; omega)]
        exact h3 i l hi hl
      · rw [Arr2.set_val, if_neg (fun e => by have := e.1; omega), Arr2.set_val]
        by_cases hir : i = r
        · subst i; rw [if_pos ⟨rfl, rfl⟩]
        · rw [if_neg (fun e => hir (by exact_mod_cast e.1))]; exact h4 i (by omega)
      · rw [if_neg (by omega), nL]
        simp only [Nat.add_sub_cancel]
        ring)
  refine ⟨s, e, h1, fun r hr => h2 r (by omega), fun i r hi hr => ?_, ?_⟩
  · rcases Nat.lt_or_ge i j with hij | hij
    · exact h3 i r hij hr
    · obtain rfl : i = j := by omega
      exact h4 r (by omega)
  · rw [h5, if_neg (by omega), tri, if_neg (by omega), if_pos rfl, add_zero]
    simp

theorem Is.ndu_ok [IsStrictOrderedRing K] (h : u.Is p n t) {x : K} {c : Nat} (hc : p ≤ c) (hc' : c < p + n) :
    ∃ s, (do let ndu ← (Arr2.uninit (p + 1) (p + 1)).wr 0 0 1
             forLoop (u.nduOuter (BitVec.ofNat 64 c) x) 0 p ⟨ndu, Arr.uninit p, Arr.uninit p⟩) = .ok s ∧
      Lines s.ndu (p + 1) (tri (nL t x c) (nR t x c) 1) p ∧ Inv t c s.ndu p := by
  rw [Arr2.wr_ok ⟨le_refl _, by simp [Arr2.uninit], le_refl _, by simp [Arr2.uninit]⟩,
    Res.ok_bind]
  obtain ⟨s, e, h1, h2, _⟩ := forLoop_inv (f := u.nduOuter (BitVec.ofNat 64 c) x)
    (fun j s => Lines s.ndu (p + 1) (tri (nL t x c) (nR t x c) 1) j ∧ Inv t c s.ndu j ∧
      Sides t x c p s.left s.right j) p 0
    ⟨(Arr2.uninit (p + 1) (p + 1) : Arr2 K).set 0 0 1, Arr.uninit p, Arr.uninit p⟩
    ⟨⟨rfl, rfl, fun i r hi hr => by
      obtain ⟨rfl, rfl⟩ : i = 0 ∧ r = 0 := by omega
      rw [Arr2.set_val, if_pos ⟨rfl, rfl⟩]; simp [tri]⟩, fun i r hi => absurd hi (by omega), rfl, rfl,
      fun i hi => absurd hi (by omega), fun i hi => absurd hi (by omega)⟩
    (by
      rintro j ⟨a, left, right⟩ - hj ⟨h1, h2, h3⟩
      simp only at h1 h2 h3
      obtain ⟨s', e', g1, g2, g3, g4⟩ := nduInner_ok (show j < p by omega) hc h3.next a h1 h2
      have k := h.sideKnots hc hc' (show j < p by omega)
      have hrows := g1.rows
      have hcols := g1.cols
      simp only [nduOuter, k.1, k.2, Res.ok_bind,
        Arr.wr_ok (show j < left.size by rw [h3.lsize]; omega),
        Arr.wr_ok (show j < right.size by rw [h3.rsize]; omega), e']
      rw [Arr2.wr_ok ⟨by omega, by omega, by omega, by omega⟩, Res.ok_bind]
      refine ⟨_, rfl, ⟨g1.rows, g1.cols, fun i r hi hr => ?_⟩, fun i r hi hr => ?_, h3.next⟩
      · rw [Arr2.set_val]
        by_cases hij : (i : Int) = (j : Int) + 1 ∧ (r : Int) = (j : Int) + 1
        · rw [if_pos hij]
          obtain ⟨rfl, rfl⟩ : i = j + 1 ∧ r = j + 1 := by omega
          rw [g4]
        · rw [if_neg hij]
          rcases Nat.lt_or_eq_of_le hi with h | rfl
          · exact g1.val i r (by omega) hr
          · exact g2 r (by omega)
      · rw [Arr2.set_val, if_neg (fun e => by have := e.1; have := e.2; omega)]
        exact g3 i r hi hr)
  rw [Nat.zero_add] at h1 h2
  exact ⟨s, e, h1, h2⟩

end NUBS

/-! ## The data of the loops -/

theorem Spec.dcoef_scale {w w' : Nat → Nat → K} {h : K} {p : Nat}
    (hw : ∀ k j, 1 ≤ k → k ≤ p → w' k j = h * w k j) (k j : Nat) (hk : k ≤ p) :
    Spec.dcoef w' k j = h ^ k * Spec.dcoef w k j := by
  induction k generalizing j with
  | zero => rw [Spec.dcoef, Spec.dcoef, pow_zero, one_mul]
  | succ k ih =>
    rw [Spec.dcoef, Spec.dcoef, ih j (by omega), ih (j - 1) (by omega), hw (k + 1) j (by omega) hk]
    split <;> ring

/-- The triangle of the B-splines gives the data of the loops. -/
theorem NDer.data_of {t : Nat → K} (ht : Monotone t) {b x : K} {c : Nat} (hc : Spec.InCell t b x c)
    {p m : Nat} (hm : c = m + p) {wt : Int → Int → Res K} {ndu : Arr2 K} {T : Nat → Nat → K}
    (hl : Lines ndu (p + 1) T p)
    (hT : ∀ j r, j ≤ p → r ≤ j → T j r = Spec.bspline t b j (c - j + r) x) {w : Nat → Nat → K} (r : Nat)
    (hw : ∀ k j, 1 ≤ k → k ≤ p → NDer.Need p r k j →
      wt ((p : Int) - k) ((r : Int) - k + j) = .ok (w k j)) :
    NDer.Data wt p ndu r (fun k j => (Spec.piece t c (p - k) (m + r + j)).eval x) w where
  rows := hl.rows
  cols := hl.cols
  entry k j hk hn := by
    obtain ⟨h1, h2, h3⟩ := hn
    have e1 : (p : Int) - k = ((p - k : Nat) : Int) := by omega
    have e2 : (r : Int) - k + j = ((r + j - k : Nat) : Int) := by omega
    rw [e1, e2, hl.val _ _ (by omega) (by omega), hT _ _ (by omega) (by omega),
      Spec.bspline_eq_piece ht hc, show c - (p - k) + (r + j - k) = m + r + j by omega]
  zero k j hk hj hn := by
    rw [Spec.piece_zero _ _ _ _ ?_]
    · simp
    · by_contra hcon
      exact hn ⟨by omega, by omega, by omega⟩
  weight := hw

end DDC
