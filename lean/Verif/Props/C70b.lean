import Verif.Props.C70
import Verif.Lemmas.Cardinal

/-!
# C70 — the interpolation matrix with rounding: uniform periodic B-splines
-/

namespace DDC.Props
open One Rounded Spec Finset
variable {fl : Rat → Rat}

/-- The knots of uniform B-splines, to the accuracy of the operations. -/
theorem knots_fine (hfl : RoundsAll fl) {a b : Rat} (hab : a < b) {n p : Nat} (hn : 0 < n) :
    0 < (mkKnots fl a b n p).step ∧
      99 / 100 * (b - a) ≤ n * (mkKnots fl a b n p).step ∧
      |(mkKnots fl a b n p).rmax fl - (mkKnots fl a b n p).rmin fl - n * (mkKnots fl a b n p).step| ≤
        (3 * |a| + (9 * p + 4 * n) * (mkKnots fl a b n p).step) / 2 ^ 53 ∧
      |(mkKnots fl a b n p).rmin fl| ≤ 101 / 100 * |a| + p * (mkKnots fl a b n p).step := by
  have hn0 : (0 : Rat) < n := by exact_mod_cast hn
  have hp0 : (0 : Rat) ≤ p := by positivity
  have hd : 0 < b - a := sub_pos.2 hab
  obtain ⟨s, hs⟩ : ∃ s, s = fl (fl (b - a) / n) := ⟨_, rfl⟩
  have hs0 : 99 / 100 * ((b - a) / n) ≤ s := by
    have h1 := le_fl hfl hd.le
    have h2 : (1 - 1 / 2 ^ 53) * (b - a) / n ≤ fl (b - a) / n := by gcongr
    have h3 := le_fl hfl (q := fl (b - a) / n) (div_nonneg (fl_nonneg hfl hd.le) hn0.le)
    have h4 : (0 : Rat) ≤ (b - a) / n := (div_pos hd hn0).le
    rw [mul_div_assoc] at h2
    rw [hs]
    have h5 : (1 - 1 / 2 ^ 53 : Rat) * ((1 - 1 / 2 ^ 53) * ((b - a) / n)) ≤ (1 - 1 / 2 ^ 53) * (fl (b - a) / n) :=
      mul_le_mul_of_nonneg_left h2 (by norm_num)
    have h6 : (99 / 100 : Rat) * ((b - a) / n) ≤ (1 - 1 / 2 ^ 53) * ((1 - 1 / 2 ^ 53) * ((b - a) / n)) := by
      rw [← mul_assoc]
      exact mul_le_mul_of_nonneg_right (by norm_num) h4
    linarith
  have hspos : 0 < s := lt_of_lt_of_le (by positivity) hs0
  obtain ⟨P, hP⟩ : ∃ P, P = (p : Rat) * s := ⟨_, rfl⟩
  obtain ⟨N, hN⟩ : ∃ N, N = (n : Rat) * s := ⟨_, rfl⟩
  have hP0 : 0 ≤ P := by rw [hP]; positivity
  have hN0 : 0 ≤ N := by rw [hN]; positivity
  have hPN : ((p + n : Nat) : Rat) * s = P + N := by rw [hP, hN]; push_cast; ring
  have f1 := fl_le hfl hP0
  have f2 := le_fl hfl hP0
  have f3 := fl_le hfl (add_nonneg hP0 hN0)
  have f4 := le_fl hfl (add_nonneg hP0 hN0)
  obtain ⟨o, ho⟩ : ∃ o, o = fl (a - fl P) := ⟨_, rfl⟩
  have h1 := hfl.error (a - fl P)
  rw [← ho] at h1
  have h3 : |a - fl P| ≤ |a| + |fl P| := abs_sub a (fl P)
  rw [abs_of_nonneg (fl_nonneg hfl hP0)] at h3
  have hA := abs_nonneg a
  have ho1 : |o| ≤ 101 / 100 * (|a| + P) := by
    have h2 : |o| ≤ |o - (a - fl P)| + |a - fl P| := by
      have := abs_add_le (o - (a - fl P)) (a - fl P)
      rwa [sub_add_cancel] at this
    linarith
  have e1 := hfl.error (o + fl P)
  have e2 := hfl.error (o + fl (P + N))
  have g1 : |o + fl P| ≤ 101 / 100 * (|a| + P) + 101 / 100 * P := by
    refine (abs_add_le _ _).trans (add_le_add ho1 ?_)
    rw [abs_of_nonneg (fl_nonneg hfl hP0)]; linarith
  have g2 : |o + fl (P + N)| ≤ 101 / 100 * (|a| + P) + 101 / 100 * (P + N) := by
    refine (abs_add_le _ _).trans (add_le_add ho1 ?_)
    rw [abs_of_nonneg (fl_nonneg hfl (add_nonneg hP0 hN0))]; linarith
  have r1 : (mkKnots fl a b n p).rmin fl = fl (o + fl P) := by
    rw [Knots.rmin, Knots.coordinate]; simp only [mkKnots]; rw [← hs, ← hP, ← ho]
  have r2 : (mkKnots fl a b n p).rmax fl = fl (o + fl (P + N)) := by
    rw [Knots.rmax, Knots.coordinate]; simp only [mkKnots]; rw [← hs, ← hP, ← ho, hPN]
  have r3 : (mkKnots fl a b n p).step = s := hs.symm
  rw [r1, r2, r3, ← hN, ← hP]
  have h4 := abs_le.1 h1
  have ha := abs_le.1 (le_refl |a|)
  refine ⟨hspos, ?_, ?_, ?_⟩
  · rw [hN]
    have := mul_le_mul_of_nonneg_left hs0 hn0.le
    refine le_trans (le_of_eq ?_) this
    field_simp
  · rw [show (9 * (p : Rat) + 4 * n) * s = 9 * P + 4 * N by rw [hP, hN]; ring]
    rw [abs_le] at e1 e2 ⊢
    constructor <;> linarith
  · rw [abs_le] at e1 ⊢
    constructor <;> linarith

/-- The position, in steps, of an interpolation point of a periodic domain. -/
theorem point_cell (hfl : RoundsNearest fl) {a b : Rat} (hab : a < b) {n p : Nat} (hn : 0 < n)
    (hn' : n + 1 < 2 ^ 31) (hp : p ≤ 2 ^ 20) (hres : |a| * n ≤ 2 ^ 46 * (b - a)) {k : Knots}
    (hk : k = mkKnots fl a b n p) {i : Nat} (hi : i < n) :
    ∃ (c : Nat) (o : Rat), getIcellAndOffset fl k (k.grevillePoint fl i) = .ok ((c : Int), o) ∧ c ≤ n ∧ 0 ≤ o ∧ o ≤ 1 ∧
      |c + o - (i + grevilleShift p)| ≤ (6 * (|a| * n / (b - a)) + 12 * p + 23 * n + 8) / 2 ^ 53 ∧
      k.rmin fl ≤ k.grevillePoint fl i ∧ k.grevillePoint fl i < k.rmax fl ∧
      |k.grevillePoint fl i - k.rmin fl - (i + grevilleShift p) * k.step| ≤ 1 / 4 * k.step := by
  obtain ⟨hs, hlen, hr⟩ := knots_bounds3 hfl.toRoundsAll hab hn (by omega) hp hres
  obtain ⟨-, q1, q2, q3⟩ := knots_fine (p := p) hfl.toRoundsAll hab hn
  rw [← hk] at hs hlen hr q1 q2 q3
  have kn : k.n = n := by rw [hk]; rfl
  have kp : k.p = p := by rw [hk]; rfl
  have hres' := hres
  have hn0 : (1 : Rat) ≤ n := by exact_mod_cast hn
  have hn1 : (n : Rat) ≤ 2 ^ 31 := by exact_mod_cast (show n ≤ 2 ^ 31 by omega)
  have hp0 : (0 : Rat) ≤ p := Nat.cast_nonneg p
  have hp1 : (p : Rat) ≤ 2 ^ 20 := by exact_mod_cast hp
  obtain ⟨h1, -, h3⟩ := point_bounds hfl (k := k) (by omega) (by omega) hs (by rw [kn]; exact hlen) hr (i := i)
    (by rw [kp, kn]; split <;> omega)
  rw [kn, kp] at h3
  have hd : 0 < b - a := sub_pos.2 hab
  obtain ⟨x, hx⟩ : ∃ x, x = k.grevillePoint fl i := ⟨_, rfl⟩
  obtain ⟨R, hR⟩ : ∃ R, R = k.rmin fl := ⟨_, rfl⟩
  obtain ⟨L, hL⟩ : ∃ L, L = k.rmax fl - R := ⟨_, rfl⟩
  obtain ⟨s, hs'⟩ : ∃ s, s = k.step := ⟨_, rfl⟩
  obtain ⟨A, hA⟩ : ∃ A, A = |a| := ⟨_, rfl⟩
  obtain ⟨N, hN⟩ : ∃ N, N = (n : Rat) * s := ⟨_, rfl⟩
  obtain ⟨P, hP⟩ : ∃ P, P = (p : Rat) * s := ⟨_, rfl⟩
  obtain ⟨z, hz⟩ : ∃ z, z = (i : Rat) + grevilleShift p := ⟨_, rfl⟩
  rw [← hx] at h1 ⊢
  rw [← hz]
  rw [← hx, ← hR, ← hL, ← hz] at h3
  rw [← hR, ← hL, ← hs', ← hN, ← hA, show (9 * (p : Rat) + 4 * n) * s = 9 * P + 4 * N by rw [hP, hN]; ring] at q2
  rw [← hR, ← hs', ← hA, ← hP] at q3
  rw [← hs', ← hN] at q1
  rw [← hR] at h1
  rw [← hs'] at hs
  rw [← hA] at hres ⊢
  have hsh : 0 ≤ grevilleShift p ∧ grevilleShift p ≤ 1 / 2 := by
    rw [grevilleShift]; split <;> norm_num
  have hi0 : (0 : Rat) ≤ i := Nat.cast_nonneg i
  have hi1 : (i : Rat) + 1 ≤ n := by exact_mod_cast hi
  have hA0 : 0 ≤ A := by rw [hA]; exact abs_nonneg a
  have hAs : A ≤ 21 / 20 * 2 ^ 46 * s := by
    have : A * n ≤ 21 / 20 * 2 ^ 46 * s * n := by rw [mul_assoc _ s, mul_comm s, ← hN]; linarith
    exact le_of_mul_le_mul_right this (by linarith)
  have hP0 : 0 ≤ P := by rw [hP]; positivity
  have hN0 : 0 ≤ N := by rw [hN]; positivity
  have hP1 : P ≤ 2 ^ 20 * s := by rw [hP]; exact mul_le_mul_of_nonneg_right hp1 hs.le
  have hN1 : N ≤ 2 ^ 31 * s := by rw [hN]; exact mul_le_mul_of_nonneg_right hn1 hs.le
  have k1 : |z * (L / n) - z * s| ≤ (3 * A + (9 * P + 4 * N)) / 2 ^ 53 := by
    refine le_trans ?_ q2
    rw [hN, show z * (L / n) - z * s = z / n * (L - n * s) by field_simp, abs_mul]
    refine mul_le_of_le_one_left (abs_nonneg _) ?_
    rw [abs_of_nonneg (by rw [hz]; exact div_nonneg (by linarith) (by linarith)), div_le_one (by linarith), hz]
    linarith
  have q4 := abs_le.1 q2
  have k2 : |x - R - z * s| ≤ (52 / 10 * A + 12 * P + 15 * N) / 2 ^ 53 := by
    rw [abs_le] at k1 h3 ⊢
    have := abs_nonneg R
    constructor <;> linarith
  have hzN : z * s ≤ N - 1 / 2 * s := by
    rw [hN, ← sub_mul]
    exact mul_le_mul_of_nonneg_right (by rw [hz]; linarith) hs.le
  have hlt : x < k.rmax fl := by
    have h5 := (abs_le.1 k2).2
    have : k.rmax fl = L + R := by rw [hL]; ring
    linarith
  obtain ⟨c, o, e, g1, g2, g3, g4, g5, -, -⟩ := C58_uniform_partial hfl.toRoundsAll hab hn hn' hp hres' hk
    (by rw [← hR]; exact h1) hlt.le
  obtain ⟨c, rfl⟩ := Int.eq_ofNat_of_zero_le g1
  refine ⟨c, o, e, by omega, g3, g4, ?_, by rw [← hR]; exact h1, hlt, ?_⟩
  swap
  · rw [← hR, ← hs']
    refine k2.trans ?_
    linarith
  have g6 := g5 hlt
  rw [← hR, ← hs'] at g6
  have k3 : |(x - R) / s - z| ≤ (52 / 10 * (A / s) + 12 * p + 15 * n) / 2 ^ 53 := by
    rw [show (x - R) / s - z = (x - R - z * s) / s by field_simp, abs_div, abs_of_pos hs, div_le_iff₀ hs]
    refine k2.trans (le_of_eq ?_)
    rw [hP, hN]
    field_simp
  have k4 : A / s ≤ 101 / 99 * (A * n / (b - a)) := by
    rw [div_le_iff₀ hs]
    rw [hN] at q1
    have : A * (99 / 100 * (b - a)) ≤ A * (n * s) := mul_le_mul_of_nonneg_left q1 hA0
    rw [show 101 / 99 * (A * n / (b - a)) * s = 101 / 99 * (A * (n * s)) / (b - a) by ring, le_div_iff₀ hd]
    have := mul_nonneg hA0 hd.le
    linarith
  have h6 := abs_sub_le ((c : Rat) + o) ((x - R) / s) z
  have : 0 ≤ A * n / (b - a) := by positivity
  push_cast at g6
  linarith

/-- Values at the offset `o` of the B-splines of a cell. -/
theorem ubs_valuesR {k : Knots} {p : Nat} (hk : k.p = p) {x : Rat} {c : Nat}
    {o : Rat} (hg : getIcellAndOffset fl k x = .ok ((c : Int), o)) {a : Arr Rat} (ha : a.size = p + 1) :
    ∃ v, k.evalBasis fl a x = .ok (v, (c : Int)) ∧ v.size = p + 1 ∧
      ∀ r, r ≤ p → v.val r = some (triR fl (uA fl o) (uB fl o) uD 1 p r) := by
  obtain ⟨v, e, hl⟩ := Knots.triangle_ok (fl := fl) o 1 p (a.set 0 1) (p + 1) (by omega) (by simpa using ha)
    (by rw [Arr.set_val, if_pos rfl])
  have hd' : decide (a.size = k.p + 1) = true := by rw [hk]; exact decide_eq_true ha
  have hsz : (a.set 0 1).size - 1 = p := by rw [Arr.set_size, ha]; rfl
  refine ⟨v, ?_, hl.1, fun r hr => hl.2 r hr⟩
  rw [Knots.evalBasis, hd', Res.guardAbort_true, Res.ok_bind, hg, Res.ok_bind, Arr.wr_ok (by omega), Res.ok_bind, hsz, e]
  rfl

/-- The computed values, compared to those at another offset of the cell. -/
theorem ubs_values_near (hfl : RoundsAll fl) {p : Nat} (hp' : p < 2 ^ 20) {o o' : Rat} (h0 : 0 ≤ o) (h1 : o ≤ 1)
    (h0' : 0 ≤ o') (h1' : o' < 1) {b : Rat} (hb : 1 ≤ b) {r : Nat} (hr : r ≤ p) :
    |triR fl (uA fl o) (uB fl o) uD 1 p r - bspline (intKnot p) b p r o'| ≤ p * (p + 13) / 2 ^ 53 + 2 * p * |o - o'| := by
  obtain ⟨-, -, k3⟩ := ubs_lines hfl h0 h1 hp'
  have hmem : r ∈ range (p + 1) := mem_range.2 (by omega)
  have g1 := (single_le_sum (f := fun r => |triR fl (uA fl o) (uB fl o) uD 1 p r - tri (uL o) (uR o) 1 p r|)
    (fun _ _ => abs_nonneg _) hmem).trans k3
  have g2 := (single_le_sum (f := fun i => |cellValue p 0 o i - cellValue p 0 o' i|) (fun _ _ => abs_nonneg _) hmem).trans
    (cellValue_lip (p := p) (c := 0) (N := p + 1) (by omega) h0 h1 h0' h1'.le)
  have e := int_bspline (p := p) (c := 0) (b := b) (y := o') (by simpa using h0') (by simpa using h1') (by linarith) r
  rw [Nat.cast_zero, sub_zero] at e
  rw [← e] at g2
  have e1 : cellValue p 0 o r = tri (uL o) (uR o) 1 p r := by rw [cellValue, if_pos (by omega), Nat.sub_zero]
  rw [e1] at g2
  exact (abs_sub_le _ (tri (uL o) (uR o) 1 p r) _).trans (add_le_add g1 g2)

/-- The values at the middle of a cell, for an even degree, or at a knot, are symmetric. -/
theorem shift_symm {p r : Nat} (hp : 0 < p) (hr : r ≤ 2 * (p / 2)) (b : Rat) :
    bspline (intKnot p) b p (2 * (p / 2) - r) (grevilleShift p) = bspline (intKnot p) b p r (grevilleShift p) := by
  obtain ⟨q, rfl⟩ : ∃ q, p = q + 1 := ⟨p - 1, by omega⟩
  have ht : ∀ k j : Nat, intKnot (q + 1) (k + j) = intKnot (q + 1) k + (j : Rat) * 1 := by
    intro k j; rw [intKnot, intKnot]; push_cast; ring
  rw [bspline_cardinal one_pos ht, bspline_cardinal one_pos ht, ← cardinal_symm]
  congr 1
  rw [intKnot, intKnot, Nat.cast_sub hr, grevilleShift]
  split_ifs with c
  · have : ((2 * ((q + 1) / 2) : Nat) : Rat) = q + 1 := by exact_mod_cast (show 2 * ((q + 1) / 2) = q + 1 by omega)
    rw [this]
    push_cast
    ring
  · have : ((2 * ((q + 1) / 2) : Nat) : Rat) = q := by exact_mod_cast (show 2 * ((q + 1) / 2) = q by omega)
    rw [this]
    push_cast
    ring

/-- Specification: `A` is, up to `ε`, the `n × n` circulant matrix of the values of the B-splines on the integers at the
middle of a cell if their degree is even, at a knot if it is odd; the other entries are zero up to `ε'`. -/
def CirculantNear (p n : Nat) (A : Nat → Nat → Rat) (ε ε' : Rat) : Prop :=
  ∀ i j, i < n → j < n →
    (∀ r, r ≤ 2 * (p / 2) → (i + r) % n = (j + p / 2) % n →
      |A i j - bspline (intKnot p) (n + 1) p r (if p % 2 = 0 then 1 / 2 else 0)| ≤ ε) ∧
    ((∀ r, r ≤ 2 * (p / 2) → (i + r) % n ≠ (j + p / 2) % n) → |A i j| ≤ ε')

theorem mod_two {n w : Nat} (hw : w < 2 * n) : w % n = if w < n then w else w - n := by
  split_ifs with c
  · exact Nat.mod_eq_of_lt c
  · rw [Nat.mod_eq_sub_mod (by omega), Nat.mod_eq_of_lt (by omega)]

/-- The assembly on a periodic uniform grid; the point number `i` is seen in the cell `i` or in the cell before. -/
theorem uniform_assemble {k : Knots} {n p : Nat} (hp : 0 < p) (hpn : p < n) (hn : n ≤ 35000) (kn : k.n = n) (kp : k.p = p)
    {cell d : Nat → Nat} (hcell : ∀ i, i < n → cell i + d i = i ∧ 2 * (p / 2) + d i ≤ p) {v : Nat → Nat → Rat}
    (hbasis : ∀ i, i < n → ∀ a : Arr Rat, a.size = p + 1 → ∃ w, Spl.evalBasis fl (.uniform k true) a (k.grevillePoint fl i) =
      .ok (w, BitVec.ofNat 64 (cell i)) ∧ w.size = p + 1 ∧ ∀ r, r ≤ p → w.val r = some (v i r))
    {ε ε' : Rat} (h0 : 0 ≤ ε') (h1 : ε' < 1 / 10 ^ 15)
    (hnear : ∀ i r, i < n → r ≤ 2 * (p / 2) → |v i (r + d i) - bspline (intKnot p) (n + 1) p r (grevilleShift p)| ≤ ε)
    (htiny : ∀ i r, i < n → r ≤ p → (r < d i ∨ 2 * (p / 2) + d i < r) → |v i r| ≤ ε')
    (hoff : Rounded.computeOffset fl (.uniform k true) (seg () 0 n) (uniformPoints fl k) = .ok ((p / 2 : Nat) : Int)) :
    ∃ m, Rounded.assemble fl (.uniform k true) (seg () 0 n) (uniformPoints fl k) = .ok (((p / 2 : Nat) : Int), m) ∧
      m.Shaped ∧ m.size.toNat = n ∧ CirculantNear p n m.shown ε ε' := by
  have hcoord : ∀ i, i < n → uniformPoints fl k (el () i) = .ok (k.grevillePoint fl i) := by
    intro i hi
    rw [uniformPoints, NUBS.uid1_el, Res.ok_bind, BitVec.toNat_ofNat, Nat.mod_eq_of_lt (by omega)]
  have hrows : Rows fl (.uniform k true) p n 0 n (uniformPoints fl k) (fun i => k.grevillePoint fl i) cell v := by
    refine ⟨kp, ?_, by omega, by omega, by omega, fun i hi => ?_, fun i hi => ?_, hbasis⟩
    · rw [Spl.nbasis, kn]; rfl
    · rw [Nat.zero_add]; exact hcoord i hi
    · have := hcell i hi; omega
  obtain ⟨s1, s2⟩ := C54_periodic_small (n : Int) ((p / 2 : Nat) : Int) ((p / 2 : Nat) : Int) (by omega) (by omega) (by omega)
    (by omega) (by omega)
  obtain ⟨m0, em, hf, hst, hsame⟩ := C54_periodic_partial (K := Rat) (n : Int) ((p / 2 : Nat) : Int) ((p / 2 : Nat) : Int) true
    (by omega) (by omega) (by omega) (by omega) s1 s2
  have hmod : ∀ i r j : Nat, i < n → j < n → r ≤ 2 * (p / 2) →
      ((((cell i + (r + d i) : Nat) : Int) - ((p / 2 : Nat) : Int)) % (n : Int) = j ↔ (i + r) % n = (j + p / 2) % n) := by
    intro i r j hi hj hr
    have hc := hcell i hi
    have a2 : ∀ z : Int, -n ≤ z → z < 2 * n → z % (n : Int) = if z < 0 then z + n else if z < n then z else z - n := by
      intro z h1 h2
      split_ifs with c1 c2
      · rw [← Int.add_emod_right, Int.emod_eq_of_lt (by omega) (by omega)]
      · exact Int.emod_eq_of_lt (by omega) (by omega)
      · rw [← Int.sub_emod_right, Int.emod_eq_of_lt (by omega) (by omega)]
    rw [mod_two (w := i + r) (by omega), mod_two (w := j + p / 2) (by omega), a2 _ (by omega) (by omega)]
    split_ifs <;> omega
  have hstored : ∀ i r j : Nat, i < n → j < n → r ≤ 2 * (p / 2) → (i + r) % n = (j + p / 2) % n → m0.Stored i j := by
    intro i r j hi hj hr h
    rw [mod_two (w := i + r) (by omega), mod_two (w := j + p / 2) (by omega)] at h
    apply hst i j (by omega) (by omega)
    split_ifs at h <;> omega
  have hswap : ∀ i r j : Nat, i < n → j < n → r ≤ 2 * (p / 2) → (i + r) % n = (j + p / 2) % n →
      (j + (2 * (p / 2) - r)) % n = (i + p / 2) % n := by
    intro i r j hi hj hr h
    rw [mod_two (w := i + r) (by omega), mod_two (w := j + p / 2) (by omega)] at h
    rw [mod_two (w := j + (2 * (p / 2) - r)) (by omega), mod_two (w := i + p / 2) (by omega)]
    split_ifs at h ⊢ <;> omega
  have hcol : ∀ i r : Nat, (((cell i + r : Nat) : Int) - ((p / 2 : Nat) : Int)) % (n : Int) < n := fun i r =>
    Int.emod_lt_of_pos _ (by omega)
  obtain ⟨m, e, g2, g3, g4⟩ := hrows.matrix hpn (off := ((p / 2 : Nat) : Int)) (by omega) (by omega)
    (by rw [Int.toNat_natCast] at hf; exact hf)
    (fun i r j hi hr hj => by
      have hj' : j < n := by have := hcol i r; omega
      by_cases c : r < d i ∨ 2 * (p / 2) + d i < r
      · exact .inr ((htiny i r hi hr c).trans_lt h1)
      · obtain ⟨r, rfl⟩ : ∃ x, r = x + d i := ⟨r - d i, by omega⟩
        exact .inl (hstored i r j hi hj' (by omega) ((hmod i r j hi hj' (by omega)).1 hj)))
  have hat : ∀ i r j : Nat, i < n → j < n → r ≤ 2 * (p / 2) → (i + r) % n = (j + p / 2) % n →
      rowEntry p n ((p / 2 : Nat) : Int) cell v i j = v i (r + d i) := fun i r j hi hj hr h =>
    rowEntry_at hpn (by have := hcell i hi; omega) ((hmod i r j hi hj hr).2 h)
  have hzero : ∀ i j : Nat, i < n → j < n → (∀ r, r ≤ 2 * (p / 2) → (i + r) % n ≠ (j + p / 2) % n) →
      |rowEntry p n ((p / 2 : Nat) : Int) cell v i j| ≤ ε' := by
    intro i j hi hj h
    by_cases hne : rowEntry p n ((p / 2 : Nat) : Int) cell v i j = 0
    · rw [hne, abs_zero]; exact h0
    obtain ⟨r, hr, ej, -⟩ := rowEntry_zero hne
    rw [rowEntry_at hpn hr ej]
    refine htiny i r hi hr ?_
    by_contra c
    obtain ⟨r, rfl⟩ : ∃ x, r = x + d i := ⟨r - d i, by omega⟩
    exact h r (by omega) ((hmod i r j hi hj (by omega)).1 ej)
  refine ⟨m, ?_, g2, ?_, fun i j hi hj => ?_⟩
  · have eper : Spl.periodic (.uniform k true) = true := rfl
    have euni : Spl.isUniform (.uniform k true) = true := rfl
    have edeg : Spl.degree (.uniform k true) = p := kp
    have enb : Spl.nbasis (.uniform k true) = .ok (BitVec.ofNat 64 n) := hrows.nbasis
    rw [Rounded.assemble, hoff, Res.ok_bind, Rounded.allocateMatrix, eper, euni, edeg, enb]
    simp only [if_true]
    rw [Res.ok_bind, sizeToInt_ofNat (by omega)]
    rw [Nat.zero_add] at e
    rw [show ((p : Int) / 2) = ((p / 2 : Nat) : Int) by omega, em, Res.ok_bind, e]
    rfl
  · rw [g3, hf.size, Int.toNat_natCast]
  · have hb := g4 i j hi hj
    change (∀ r, r ≤ 2 * (p / 2) → (i + r) % n = (j + p / 2) % n →
      |m.shown i j - bspline (intKnot p) (n + 1) p r (grevilleShift p)| ≤ ε) ∧ _
    constructor
    · intro r hr hrj
      have e1 := hat i r j hi hj hr hrj
      have e2 := hat j (2 * (p / 2) - r) i hj hi (by omega) (hswap i r j hi hj hr hrj)
      have n1 := hnear i r hi hr
      have n2 := hnear j (2 * (p / 2) - r) hj (by omega)
      rw [shift_symm hp hr] at n2
      rcases hb with ⟨x, y, hx, hy, hs, e⟩ | ⟨e, h⟩
      · rcases hsame _ _ hs with h | h
        · obtain ⟨rfl, rfl⟩ := Prod.mk.inj h
          rw [e, e1]; exact n1
        · obtain ⟨rfl, rfl⟩ := Prod.mk.inj h.2.2
          rw [e, e2]; exact n2
      · rcases h with h | ⟨h, -⟩
        · rw [e, ← h, e1]; exact n1
        · exact absurd (hstored i r j hi hj hr hrj) h
    · intro hno
      rcases hb with ⟨x, y, hx, hy, hs, e⟩ | ⟨e, -⟩
      · rcases hsame _ _ hs with h | h
        · obtain ⟨rfl, rfl⟩ := Prod.mk.inj h
          rw [e]
          exact hzero _ _ hi hj hno
        · obtain ⟨rfl, rfl⟩ := Prod.mk.inj h.2.2
          rw [e]
          refine hzero _ _ hj hi ?_
          intro r hr hrj
          exact hno (2 * (p / 2) - r) (by omega) (hswap _ _ _ hj hi hr hrj)
      · rw [e, abs_zero]; exact h0

/-- The computed value of the last B-spline of a cell near its start. -/
theorem tiny_last (hfl : RoundsAll fl) {o Δ : Rat} (h0 : 0 ≤ o) (h1 : o ≤ 1) (ho : o ≤ Δ) {p : Nat} (hp : p < 2 ^ 20)
    (hΔ : (p + 1) / 2 ^ 53 ≤ Δ) : |triR fl (uA fl o) (uB fl o) uD 1 p p| ≤ (2 * Δ) ^ p := by
  have hΔ0 : 0 ≤ Δ := h0.trans ho
  induction p with
  | zero => simp [triR]
  | succ j ih =>
    have hj0 : (0 : Rat) ≤ j := Nat.cast_nonneg j
    have hΔ' : ((j : Rat) + 1) / 2 ^ 53 ≤ Δ := by
      refine le_trans ?_ hΔ
      push_cast
      gcongr
      linarith
    have ih := ih (by omega) hΔ'
    have n0 := (ubs_lines hfl h0 h1 (show j < 2 ^ 20 by omega)).1 j (le_refl _)
    rw [abs_of_nonneg n0] at ih
    rw [triR]
    rw [if_pos rfl, if_neg (by omega), Nat.add_sub_cancel]
    obtain ⟨T, hT⟩ : ∃ T, T = triR fl (uA fl o) (uB fl o) uD 1 j j := ⟨_, rfl⟩
    rw [← hT] at ih n0 ⊢
    obtain ⟨k1, k2, k3⟩ := xxR_bounds hfl h0 h1 (j + 1) (by omega)
    have hB0 : 0 ≤ uB fl o j j := by rw [uB]; exact fl_nonneg hfl (by push_cast at k2 ⊢; linarith)
    have hB : uB fl o j j ≤ (1 + 1 / 2 ^ 53) * ((j + 1) * (Δ + (j + 2) / 2 ^ 54)) := by
      rw [uB]
      refine (fl_le hfl (by push_cast at k2 ⊢; linarith)).trans ?_
      refine mul_le_mul_of_nonneg_left ?_ (by norm_num)
      have k4 := (abs_le.1 k3).1
      have : (0 : Rat) ≤ j * Δ := by positivity
      push_cast at k4 ⊢
      rw [show ((j : Rat) + 1) * (Δ + (j + 2) / 2 ^ 54) = j * Δ + Δ + 1 / 2 ^ 53 * ((j + 1) * (j + 1 + 1) / 2) by ring]
      linarith
    have hD : 0 < uD j j := by rw [uD]; positivity
    have q0 : 0 ≤ T / uD j j := div_nonneg n0 hD.le
    have q1 := fl_le hfl q0
    have q2 := fl_nonneg hfl q0
    have q3 : 0 ≤ uB fl o j j * fl (T / uD j j) := mul_nonneg hB0 q2
    rw [abs_of_nonneg (fl_nonneg hfl q3)]
    refine (fl_le hfl q3).trans ?_
    have hT1 : 0 ≤ (1 + 1 / 2 ^ 53 : Rat) * ((j + 1) * (Δ + (j + 2) / 2 ^ 54)) := by positivity
    have q4 : uB fl o j j * fl (T / uD j j) ≤
        (1 + 1 / 2 ^ 53) * ((j + 1) * (Δ + (j + 2) / 2 ^ 54)) * ((1 + 1 / 2 ^ 53) * (T / uD j j)) :=
      mul_le_mul hB q1 q2 hT1
    have q5 : (1 + 1 / 2 ^ 53 : Rat) * ((j + 1) * (Δ + (j + 2) / 2 ^ 54)) * ((1 + 1 / 2 ^ 53) * (T / uD j j)) =
        (1 + 1 / 2 ^ 53) * (1 + 1 / 2 ^ 53) * (Δ + (j + 2) / 2 ^ 54) * T := by
      rw [uD]
      push_cast
      field_simp
    have q6 : (Δ + (j + 2) / 2 ^ 54) ≤ 3 / 2 * Δ := by
      push_cast at hΔ
      linarith
    have q7 : (1 + 1 / 2 ^ 53 : Rat) * (uB fl o j j * fl (T / uD j j)) ≤
        (1 + 1 / 2 ^ 53) * ((1 + 1 / 2 ^ 53) * (1 + 1 / 2 ^ 53) * (3 / 2 * Δ) * T) := by
      refine mul_le_mul_of_nonneg_left ?_ (by norm_num)
      rw [q5] at q4
      refine q4.trans (mul_le_mul_of_nonneg_right ?_ n0)
      exact mul_le_mul_of_nonneg_left q6 (by norm_num)
    have q8 : 2 * Δ * T ≤ (2 * Δ) ^ (j + 1) := by
      rw [pow_succ']
      exact mul_le_mul_of_nonneg_left ih (by positivity)
    have : 0 ≤ Δ * T := by positivity
    linarith

/-- The computed value of the first B-spline of a cell near its end. -/
theorem tiny_first (hfl : RoundsAll fl) {o Δ : Rat} (h0 : 0 ≤ o) (h1 : o ≤ 1) (ho : 1 - o ≤ Δ) {p : Nat} (hp : p < 2 ^ 20) :
    |triR fl (uA fl o) (uB fl o) uD 1 p 0| ≤ (2 * Δ) ^ p := by
  have hΔ0 : 0 ≤ Δ := (sub_nonneg.2 h1).trans ho
  induction p with
  | zero => simp [triR]
  | succ j ih =>
    have hj0 : (0 : Rat) ≤ j := Nat.cast_nonneg j
    have ih := ih (by omega)
    have n0 := (ubs_lines hfl h0 h1 (show j < 2 ^ 20 by omega)).1 0 (by omega)
    rw [abs_of_nonneg n0] at ih
    rw [triR]
    rw [if_neg (by omega), if_pos rfl, zero_add]
    obtain ⟨T, hT⟩ : ∃ T, T = triR fl (uA fl o) (uB fl o) uD 1 j 0 := ⟨_, rfl⟩
    rw [← hT] at ih n0 ⊢
    have hA0 : 0 ≤ uA fl o j 0 := by rw [uA, xxR, xxR]; exact fl_nonneg hfl (by linarith)
    have hA : uA fl o j 0 ≤ (1 + 1 / 2 ^ 53) * Δ := by
      rw [uA, xxR, xxR]
      exact (fl_le hfl (by linarith)).trans (mul_le_mul_of_nonneg_left (by linarith) (by norm_num))
    have hD : 1 ≤ uD j 0 := by rw [uD]; push_cast; linarith
    have q0 : 0 ≤ T / uD j 0 := div_nonneg n0 (by linarith)
    have q0' : T / uD j 0 ≤ T := div_le_self n0 hD
    have q1 := fl_le hfl q0
    have q2 := fl_nonneg hfl q0
    have q3 : 0 ≤ uA fl o j 0 * fl (T / uD j 0) := mul_nonneg hA0 q2
    have q4 : uA fl o j 0 * fl (T / uD j 0) ≤ (1 + 1 / 2 ^ 53) * Δ * ((1 + 1 / 2 ^ 53) * T) :=
      mul_le_mul hA (q1.trans (mul_le_mul_of_nonneg_left q0' (by norm_num))) q2 (by positivity)
    have q5 := fl_nonneg hfl q3
    have q6 := fl_le hfl q3
    have q7 := fl_le hfl q5
    rw [abs_of_nonneg (fl_nonneg hfl q5)]
    have q8 : 2 * Δ * T ≤ (2 * Δ) ^ (j + 1) := by
      rw [pow_succ']
      exact mul_le_mul_of_nonneg_left ih (by positivity)
    have : 0 ≤ Δ * T := by positivity
    linarith

/-- The same at the end of a cell. -/
theorem ubs_values_end (hfl : RoundsAll fl) {p : Nat} (hp : 0 < p) (hp' : p < 2 ^ 20) {o : Rat} (h0 : 0 ≤ o) (h1 : o ≤ 1)
    {b : Rat} (hb : 1 ≤ b) {r : Nat} (hr : r < p) :
    |triR fl (uA fl o) (uB fl o) uD 1 p (r + 1) - bspline (intKnot p) b p r 0| ≤ p * (p + 13) / 2 ^ 53 + 2 * p * |o - 1| := by
  obtain ⟨-, -, k3⟩ := ubs_lines hfl h0 h1 hp'
  have hmem : r + 1 ∈ range (p + 1) := mem_range.2 (by omega)
  have g1 := (single_le_sum (f := fun r => |triR fl (uA fl o) (uB fl o) uD 1 p r - tri (uL o) (uR o) 1 p r|)
    (fun _ _ => abs_nonneg _) hmem).trans k3
  have g2 := (single_le_sum (f := fun i => |cellValue p 0 o i - cellValue p 0 1 i|) (fun _ _ => abs_nonneg _) hmem).trans
    (cellValue_lip (p := p) (c := 0) (N := p + 1) (by omega) h0 h1 zero_le_one (le_refl 1))
  have e := int_bspline (p := p) (c := 0) (b := b) (y := 0) (by simp) (by simp) (by linarith) r
  have e1 : cellValue p 0 o (r + 1) = tri (uL o) (uR o) 1 p (r + 1) := by rw [cellValue, if_pos (by omega), Nat.sub_zero]
  have e2 : cellValue p (0 + 1) 0 (r + 1) = cellValue p 0 0 r := by
    rw [cellValue, cellValue, if_pos (by omega), if_pos (by omega)]; rfl
  rw [Nat.cast_zero, sub_zero] at e
  rw [e1, cellValue_knot hp, e2, ← e] at g2
  exact (abs_sub_le _ (tri (uL o) (uR o) 1 p (r + 1)) _).trans (add_le_add g1 g2)

/-- Specification: a bound of the errors on the positions of the interpolation points, in steps. -/
def positionError (a b : Rat) (n p : Nat) : Rat := (6 * (|a| * n / (b - a)) + 12 * p + 23 * n + 8) / 2 ^ 53

/-- Uniform periodic B-splines of even degree, whatever the rounding to nearest: the assembly of the matrix succeeds, and
the matrix is the circulant matrix of the values at the middle of a cell, up to errors of the order of those on the positions
of the points.
Missing: more than 35000 cells (see `C54_periodic_overflow`); domains whose distance to the origin is large with respect to
their step (`hres`). -/
theorem C70_uniform_even_partial (hfl : RoundsNearest fl) {a b : Rat} (hab : a < b) {n p : Nat} (hp : 0 < p)
    (hpe : p % 2 = 0) (hpn : p < n) (hn : n ≤ 35000) (hres : |a| * n ≤ 2 ^ 46 * (b - a)) {k : Knots}
    (hk : k = mkKnots fl a b n p) :
    ∃ m, Rounded.assemble fl (.uniform k true) (seg () 0 n) (uniformPoints fl k) = .ok (((p / 2 : Nat) : Int), m) ∧
      m.Shaped ∧ m.size.toNat = n ∧
      CirculantNear p n m.shown (p * (p + 13) / 2 ^ 53 + 2 * p * positionError a b n p) 0 := by
  have kn : k.n = n := by rw [hk]; rfl
  have kp : k.p = p := by rw [hk]; rfl
  have hp' : p < 2 ^ 20 := by omega
  have hd : 0 < b - a := sub_pos.2 hab
  have hn0 : (0 : Rat) < n := by exact_mod_cast (show 0 < n by omega)
  have hp0 : (0 : Rat) ≤ p := Nat.cast_nonneg p
  obtain ⟨Δ, hΔ⟩ : ∃ Δ, Δ = positionError a b n p := ⟨_, rfl⟩
  have hΔ1 : Δ < 1 / 4 := by
    have h1 : |a| * n / (b - a) ≤ 2 ^ 46 := by rw [div_le_iff₀ hd]; exact hres
    have h2 : (p : Rat) ≤ 2 ^ 20 := by exact_mod_cast hp'.le
    have h3 : (n : Rat) ≤ 35000 := by exact_mod_cast hn
    rw [hΔ, positionError, div_lt_iff₀ (by norm_num)]
    linarith
  rw [← hΔ]
  have hex : ∀ i, ∃ o : Rat, i < n → getIcellAndOffset fl k (k.grevillePoint fl i) = .ok ((i : Int), o) ∧ 0 ≤ o ∧ o ≤ 1 ∧
      |o - 1 / 2| ≤ Δ := by
    intro i
    by_cases hi : i < n
    · obtain ⟨c, o, e, h1, h2, h3, h4, -⟩ := point_cell hfl hab (by omega) (by omega) hp'.le hres hk hi
      rw [← positionError, ← hΔ, grevilleShift, if_pos hpe] at h4
      have h5 := abs_le.1 h4
      have hci : c = i := by
        have a1 : (c : Rat) < i + 1 := by linarith
        have a2 : (i : Rat) < c + 1 := by linarith
        have a3 : c < i + 1 := by exact_mod_cast a1
        have a4 : i < c + 1 := by exact_mod_cast a2
        omega
      subst hci
      exact ⟨o, fun _ => ⟨e, h2, h3, by rwa [show (c : Rat) + o - (c + 1 / 2) = o - 1 / 2 by ring] at h4⟩⟩
    · exact ⟨0, fun h => absurd h hi⟩
  choose o ho using hex
  have hbasis : ∀ i, i < n → ∀ a : Arr Rat, a.size = p + 1 → ∃ w, Spl.evalBasis fl (.uniform k true) a (k.grevillePoint fl i) =
      .ok (w, BitVec.ofNat 64 i) ∧ w.size = p + 1 ∧
        ∀ r, r ≤ p → w.val r = some (triR fl (uA fl (o i)) (uB fl (o i)) uD 1 p r) := by
    intro i hi a ha
    obtain ⟨w, e, h1, h2⟩ := ubs_valuesR kp (ho i hi).1 ha
    refine ⟨w, ?_, h1, h2⟩
    rw [Spl.evalBasis, e, Res.ok_bind]
    rfl
  refine uniform_assemble hp hpn hn kn kp (cell := id) (d := fun _ => 0) (fun i hi => ⟨rfl, by omega⟩) hbasis
    (le_refl 0) (by norm_num) (fun i r hi hr => ?_) (fun i r hi hr h => by omega) ?_
  · rw [grevilleShift, if_pos hpe]
    refine (ubs_values_near hfl.toRoundsAll hp' (ho i hi).2.1 (ho i hi).2.2.1 (by norm_num) (by norm_num)
      (by linarith) (by omega)).trans ?_
    have := mul_le_mul_of_nonneg_left (ho i hi).2.2.2 (show (0 : Rat) ≤ 2 * p by positivity)
    linarith
  · have edeg : Spl.degree (.uniform k true) = p := kp
    obtain ⟨w, ew, -⟩ := hbasis p hpn (Arr.uninit (p + 1)) rfl
    rw [Rounded.computeOffset, show Spl.periodic (.uniform k true) = true from rfl, edeg]
    simp only [if_true, One.front]
    rw [addInt_el, Res.ok_bind, Nat.zero_add, uniformPoints, NUBS.uid1_el, Res.ok_bind, BitVec.toNat_ofNat,
      Nat.mod_eq_of_lt (by omega), Res.ok_bind, ew, Res.ok_bind]
    dsimp only
    rw [NUBS.uid1_el, Res.ok_bind, if_pos hpe]
    congr 1
    rw [← sizeToInt_ofNat (show p / 2 < 2 ^ 31 by omega)]
    congr 1
    rw [show BitVec.ofNat 64 0 = 0#64 from rfl, BitVec.sub_zero, BitVec.add_comm, BitVec.add_sub_cancel]

/-- Uniform periodic B-splines of odd degree from three on, whatever the rounding to nearest: the same with the values at a
knot.
Missing: degree one (`C70_degree_one_aborts`); degrees so large that the two largest values at a knot are not farther apart
than the errors (`hgap`); more than 35000 cells; steps that are not larger than `2⁻¹⁸` times the resolution (`hres`). -/
theorem C70_uniform_odd_partial (hfl : RoundsNearest fl) {a b : Rat} (hab : a < b) {n p : Nat} (hp : 3 ≤ p)
    (hpo : p % 2 = 1) (hpn : p < n) (hn : n ≤ 35000) (hres : positionError a b n p ≤ 1 / 2 ^ 18)
    (hgap : 2 * (p * (p + 13) / 2 ^ 53 + 2 * p * positionError a b n p) <
      bspline (intKnot p) (n + 1) p (p / 2) 0 - bspline (intKnot p) (n + 1) p (p / 2 + 1) 0) {k : Knots}
    (hk : k = mkKnots fl a b n p) :
    ∃ m, Rounded.assemble fl (.uniform k true) (seg () 0 n) (uniformPoints fl k) = .ok (((p / 2 : Nat) : Int), m) ∧
      m.Shaped ∧ m.size.toNat = n ∧
      CirculantNear p n m.shown (p * (p + 13) / 2 ^ 53 + 2 * p * positionError a b n p) (1 / 2 ^ 51) := by
  have kn : k.n = n := by rw [hk]; rfl
  have kp : k.p = p := by rw [hk]; rfl
  have hp' : p < 2 ^ 20 := by omega
  have hd : 0 < b - a := sub_pos.2 hab
  have hn0 : (0 : Rat) < n := by exact_mod_cast (show 0 < n by omega)
  have hp0 : (0 : Rat) ≤ p := Nat.cast_nonneg p
  obtain ⟨Δ, hΔ⟩ : ∃ Δ, Δ = positionError a b n p := ⟨_, rfl⟩
  have hA : 0 ≤ |a| * n / (b - a) := by positivity
  have hΔp : ((p : Rat) + 1) / 2 ^ 53 ≤ Δ := by
    rw [hΔ, positionError]
    exact div_le_div_of_nonneg_right (by linarith) (by norm_num)
  have hres' : |a| * n ≤ 2 ^ 46 * (b - a) := by
    rw [← div_le_iff₀ hd]
    rw [positionError, div_le_iff₀ (by norm_num)] at hres
    linarith
  have hΔ0 : 0 ≤ Δ := le_trans (by positivity) hΔp
  have hsh : grevilleShift p = 0 := if_neg (by omega)
  rw [← hΔ] at hres hgap ⊢
  have htiny' : (2 * Δ) ^ p ≤ 1 / 2 ^ 51 := by
    have a1 : (2 * Δ) ^ p ≤ (2 * Δ) ^ 3 := pow_le_pow_of_le_one (by linarith) (by linarith) hp
    have a2 : (2 * Δ) ^ 3 ≤ (1 / 2 ^ 17) ^ 3 := pow_le_pow_left₀ (by linarith) (by linarith) 3
    refine a1.trans (a2.trans (by norm_num))
  have hex : ∀ i, ∃ (c d : Nat) (o : Rat), i < n → getIcellAndOffset fl k (k.grevillePoint fl i) = .ok ((c : Int), o) ∧
      c + d = i ∧ d ≤ 1 ∧ 0 ≤ o ∧ o ≤ 1 ∧ |o - d| ≤ Δ := by
    intro i
    by_cases hi : i < n
    · obtain ⟨c, o, e, h1, h2, h3, h4, -⟩ := point_cell hfl hab (by omega) (by omega) hp'.le hres' hk hi
      rw [← positionError, ← hΔ, hsh, add_zero] at h4
      have h5 := abs_le.1 h4
      have a1 : (c : Rat) < i + 1 := by linarith
      have a2 : (i : Rat) < c + 2 := by linarith
      have a3 : c < i + 1 := by exact_mod_cast a1
      have a4 : i < c + 2 := by exact_mod_cast a2
      refine ⟨c, i - c, o, fun _ => ⟨e, by omega, by omega, h2, h3, ?_⟩⟩
      rwa [Nat.cast_sub (by omega), show o - ((i : Rat) - c) = c + o - i by ring]
    · exact ⟨0, 0, 0, fun h => absurd h hi⟩
  choose cell d o ho using hex
  have hbasis : ∀ i, i < n → ∀ a : Arr Rat, a.size = p + 1 → ∃ w, Spl.evalBasis fl (.uniform k true) a (k.grevillePoint fl i) =
      .ok (w, BitVec.ofNat 64 (cell i)) ∧ w.size = p + 1 ∧
        ∀ r, r ≤ p → w.val r = some (triR fl (uA fl (o i)) (uB fl (o i)) uD 1 p r) := by
    intro i hi a ha
    obtain ⟨w, e, h1, h2⟩ := ubs_valuesR kp (ho i hi).1 ha
    refine ⟨w, ?_, h1, h2⟩
    rw [Spl.evalBasis, e, Res.ok_bind]
    rfl
  have hnear : ∀ i r, i < n → r ≤ 2 * (p / 2) → |triR fl (uA fl (o i)) (uB fl (o i)) uD 1 p (r + d i) -
      bspline (intKnot p) (n + 1) p r 0| ≤ p * (p + 13) / 2 ^ 53 + 2 * p * Δ := by
    intro i r hi hr
    obtain ⟨-, -, h1, h2, h3, h4⟩ := ho i hi
    have h5 := mul_le_mul_of_nonneg_left h4 (show (0 : Rat) ≤ 2 * p by positivity)
    obtain c | c : d i = 0 ∨ d i = 1 := by omega
    · rw [c] at h5 ⊢
      have := ubs_values_near hfl.toRoundsAll hp' h2 h3 (le_refl 0) one_pos (b := (n : Rat) + 1) (by linarith) (r := r)
        (by omega)
      push_cast at h5
      rw [Nat.add_zero]
      linarith
    · rw [c] at h5 ⊢
      have := ubs_values_end hfl.toRoundsAll (by omega) hp' h2 h3 (b := (n : Rat) + 1) (by linarith) (r := r) (by omega)
      push_cast at h5
      linarith
  refine uniform_assemble (by omega) hpn hn kn kp (cell := cell) (d := d)
    (fun i hi => ⟨(ho i hi).2.1, by have := (ho i hi).2.2.1; omega⟩) hbasis (by norm_num) (by norm_num)
    (fun i r hi hr => by rw [hsh]; exact hnear i r hi hr) (fun i r hi hr h => ?_) ?_
  · obtain ⟨-, -, h1, h2, h3, h4⟩ := ho i hi
    refine le_trans ?_ htiny'
    rw [abs_le] at h4
    obtain c | c : d i = 0 ∨ d i = 1 := by omega
    · rw [c] at h4 h
      obtain rfl : r = p := by omega
      push_cast at h4
      exact tiny_last hfl.toRoundsAll h2 h3 (by linarith) hp' hΔp
    · rw [c] at h4 h
      obtain rfl : r = 0 := by omega
      push_cast at h4
      exact tiny_first hfl.toRoundsAll h2 h3 (by linarith) hp'
  · have edeg : Spl.degree (.uniform k true) = p := kp
    obtain ⟨w, ew, hw, hwr⟩ := hbasis p hpn (Arr.uninit (p + 1)) rfl
    have hp1 := ho p hpn
    rw [Rounded.computeOffset, show Spl.periodic (.uniform k true) = true from rfl, edeg]
    simp only [if_true, One.front]
    rw [addInt_el, Res.ok_bind, Nat.zero_add, uniformPoints, NUBS.uid1_el, Res.ok_bind, BitVec.toNat_ofNat,
      Nat.mod_eq_of_lt (by omega), Res.ok_bind, ew, Res.ok_bind]
    dsimp only
    rw [NUBS.uid1_el, Res.ok_bind, if_neg (by omega), Arr.rd_ok (by omega) (hwr _ (by omega)), Res.ok_bind,
      Arr.rd_ok (by omega) (hwr _ (by omega)), Res.ok_bind]
    have m0 := abs_le.1 (hnear p (p / 2) hpn (by omega))
    congr 1
    rw [← sizeToInt_ofNat (show p / 2 < 2 ^ 31 by omega)]
    congr 1
    obtain c | c : d p = 0 ∨ d p = 1 := by omega
    · have m1 := abs_le.1 (hnear p (p / 2 + 1) hpn (by omega))
      rw [c] at m0 m1
      rw [Nat.add_zero] at m0 m1
      rw [if_pos (by linarith), show cell p = p by omega]
      rw [show BitVec.ofNat 64 0 = 0#64 from rfl, BitVec.sub_zero, BitVec.add_comm, BitVec.add_sub_cancel]
    · have m1 := abs_le.1 (hnear p (p / 2 - 1) hpn (by omega))
      have hsy := shift_symm (p := p) (r := p / 2 + 1) (by omega) (by omega) (n + 1)
      rw [hsh, show 2 * (p / 2) - (p / 2 + 1) = p / 2 - 1 by omega] at hsy
      rw [c] at m0 m1
      rw [hsy, show p / 2 - 1 + 1 = p / 2 by omega] at m1
      rw [if_neg (by linarith), show BitVec.ofNat 64 0 = 0#64 from rfl, BitVec.sub_zero, ← BitVec.ofNat_add,
        show cell p + (p / 2 + 1) = p / 2 + p by omega, BitVec.ofNat_add, BitVec.add_sub_cancel]

/-- Uniform periodic cubic splines: the case of degree three, where the two largest values are `2/3` and `1/6`. -/
theorem C70_cubic_partial (hfl : RoundsNearest fl) {a b : Rat} (hab : a < b) {n : Nat} (hn' : 3 < n) (hn : n ≤ 35000)
    (hres : |a| * n ≤ 2 ^ 32 * (b - a)) {k : Knots} (hk : k = mkKnots fl a b n 3) :
    ∃ m, Rounded.assemble fl (.uniform k true) (seg () 0 n) (uniformPoints fl k) = .ok (1, m) ∧
      m.Shaped ∧ m.size.toNat = n ∧
      CirculantNear 3 n m.shown (48 / 2 ^ 53 + 6 * positionError a b n 3) (1 / 2 ^ 51) := by
  have hd : 0 < b - a := sub_pos.2 hab
  have h1 : |a| * n / (b - a) ≤ 2 ^ 32 := by rw [div_le_iff₀ hd]; exact hres
  have h3 : (n : Rat) ≤ 35000 := by exact_mod_cast hn
  have h4 : positionError a b n 3 ≤ 1 / 2 ^ 18 := by
    rw [positionError, div_le_iff₀ (by norm_num)]
    push_cast
    linarith
  have hn0 : (0 : Rat) ≤ n := Nat.cast_nonneg n
  have ht : ∀ k j : Nat, intKnot 3 (k + j) = intKnot 3 k + (j : Rat) * 1 := by
    intro k j; rw [intKnot, intKnot]; push_cast; ring
  have e1 : bspline (intKnot 3) ((n : Rat) + 1) 3 (3 / 2) 0 = 2 / 3 := by
    rw [bspline_cardinal one_pos ht, intKnot]; norm_num [cardinal]
  have e2 : bspline (intKnot 3) ((n : Rat) + 1) 3 (3 / 2 + 1) 0 = 1 / 6 := by
    rw [bspline_cardinal one_pos ht, intKnot]; norm_num [cardinal]
  have := C70_uniform_odd_partial hfl hab (n := n) (p := 3) (le_refl _) rfl hn' hn h4 (by
    rw [e1, e2]
    push_cast
    linarith) hk
  push_cast at this
  rw [show (3 : Rat) * (3 + 13) = 48 by norm_num, show (2 : Rat) * 3 = 6 by norm_num] at this
  exact this

example : ∃ m, Rounded.assemble round53 (.uniform (mkKnots round53 0 1 20 3) true) (seg () 0 20)
    (uniformPoints round53 (mkKnots round53 0 1 20 3)) = .ok (1, m) ∧
    CirculantNear 3 20 m.shown (48 / 2 ^ 53 + 6 * positionError 0 1 20 3) (1 / 2 ^ 51) := by
  obtain ⟨m, e, -, -, h⟩ := C70_cubic_partial round53_nearest (a := 0) (b := 1) (by norm_num) (n := 20) (by norm_num)
    (by norm_num) (by norm_num) rfl
  exact ⟨m, e, h⟩

example : ∃ m, Rounded.assemble round53 (.uniform (mkKnots round53 0 1 20 2) true) (seg () 0 20)
    (uniformPoints round53 (mkKnots round53 0 1 20 2)) = .ok (1, m) ∧
    CirculantNear 2 20 m.shown ((2 : Nat) * ((2 : Nat) + 13) / 2 ^ 53 + 2 * (2 : Nat) * positionError 0 1 20 2) 0 := by
  obtain ⟨m, e, -, -, h⟩ := C70_uniform_even_partial round53_nearest (a := 0) (b := 1) (by norm_num) (n := 20) (p := 2)
    (by norm_num) rfl (by norm_num) (by norm_num) (by norm_num) rfl
  exact ⟨m, e, h⟩

end DDC.Props
