import Verif.Model.RoundedSampling
import Verif.Props.C58
import Verif.Props.C27

/-!
# C62: samplings, with rounding
-/

set_option linter.unusedSectionVars false

namespace DDC.Props

open Rounded Spec One Tup Dom

variable {fl : Rat → Rat} {τ : Type} [DecidableEq τ]

/-! ## One coordinate -/

/-- The coordinate of the point number `k`. -/
def flPoint (fl : Rat → Rat) (o s : Rat) (k : Int) : Rat := fl (o + fl (k * s))

theorem flPoint_error (hfl : RoundsAll fl) (o s : Rat) (k : Int) :
    |flPoint fl o s k - (o + k * s)| ≤ (|o + k * s| + 2 * |k * s|) / 2 ^ 53 := by
  have h1 := hfl.error (k * s)
  have h2 := hfl.error (o + fl (k * s))
  have h3 : |o + fl (k * s)| ≤ |o + k * s| + |fl (k * s) - k * s| := by
    have := abs_add_le (o + k * s) (fl (k * s) - k * s)
    have e : o + k * s + (fl (k * s) - k * s) = o + fl (k * s) := by ring
    rwa [e] at this
  have h4 : |flPoint fl o s k - (o + k * s)| ≤ |flPoint fl o s k - (o + fl (k * s))| + |fl (k * s) - k * s| := by
    have := abs_add_le (flPoint fl o s k - (o + fl (k * s))) (fl (k * s) - k * s)
    have e : flPoint fl o s k - (o + fl (k * s)) + (fl (k * s) - k * s) = flPoint fl o s k - (o + k * s) := by ring
    rwa [e] at this
  have h5 := abs_nonneg ((k : Rat) * s)
  rw [flPoint] at *
  norm_num at *
  linarith

theorem flPoint_mono (hfl : RoundsAll fl) {o s : Rat} (hs : 0 ≤ s) {i j : Int} (hij : i ≤ j) :
    flPoint fl o s i ≤ flPoint fl o s j := by
  refine hfl.mono _ _ (add_le_add_right (hfl.mono _ _ (mul_le_mul_of_nonneg_right ?_ hs)) o)
  exact_mod_cast hij

theorem flStep_error (hfl : RoundsAll fl) {a b : Rat} (hab : a < b) {m : Nat} (hm : 0 < m) :
    0 < fl (fl (b - a) / m) ∧ |fl (fl (b - a) / m) - (b - a) / m| ≤ 3 / 2 ^ 53 * ((b - a) / m) := by
  have hm' : (0 : Rat) < m := by exact_mod_cast hm
  have hd : 0 < b - a := by linarith
  have u1 := fl_le hfl hd.le
  have l1 := le_fl hfl hd.le
  have hq : 0 ≤ fl (b - a) / m := div_nonneg (fl_nonneg hfl hd.le) hm'.le
  have u2 := fl_le hfl hq
  have l2 := le_fl hfl hq
  have u3 : fl (b - a) / m ≤ (1 + 1 / 2 ^ 53) * ((b - a) / m) := by
    rw [← mul_div_assoc]; exact div_le_div_of_nonneg_right u1 hm'.le
  have l3 : (1 - 1 / 2 ^ 53) * ((b - a) / m) ≤ fl (b - a) / m := by
    rw [← mul_div_assoc]; exact div_le_div_of_nonneg_right l1 hm'.le
  have hs : 0 < (b - a) / m := div_pos hd hm'
  norm_num at *
  refine ⟨by linarith, ?_⟩
  rw [abs_le]; constructor <;> linarith

/-- The coordinate of the point `k` of a sampling with `g` points before `a`. -/
theorem ghost_error_int (hfl : RoundsAll fl) {a s s' M L : Rat} (hs : 0 < s) (hs' : |s' - s| ≤ 3 / 2 ^ 53 * s) {g : Nat}
    {k : Int} (hg : g * s ≤ L) (hk : |(k : Rat)| * s ≤ L) (hkg : |(k : Rat) - g| * s ≤ L) (hM : |a - g * s| ≤ M)
    (hM' : |a + (k - g) * s| ≤ M) :
    |flPoint fl (fl (a - fl (g * s'))) s' k - (a + ((k : Rat) - g) * s)| ≤ (3 * M + 8 * L) / 2 ^ 53 := by
  have g0 : (0 : Rat) ≤ g := Nat.cast_nonneg g
  have hP : |g * s' - g * s| ≤ 3 / 2 ^ 53 * L := by
    have e : (g : Rat) * s' - g * s = g * (s' - s) := by ring
    rw [e, abs_mul, abs_of_nonneg g0]
    calc (g : Rat) * |s' - s| ≤ g * (3 / 2 ^ 53 * s) := mul_le_mul_of_nonneg_left hs' g0
      _ = 3 / 2 ^ 53 * (g * s) := by ring
      _ ≤ _ := mul_le_mul_of_nonneg_left hg (by norm_num)
  have hQ : |k * s' - k * s| ≤ 3 / 2 ^ 53 * L := by
    have e : (k : Rat) * s' - k * s = k * (s' - s) := by ring
    rw [e, abs_mul]
    calc |(k : Rat)| * |s' - s| ≤ |(k : Rat)| * (3 / 2 ^ 53 * s) := mul_le_mul_of_nonneg_left hs' (abs_nonneg _)
      _ = 3 / 2 ^ 53 * (|(k : Rat)| * s) := by ring
      _ ≤ _ := mul_le_mul_of_nonneg_left hk (by norm_num)
  have hD : |(k * s' - g * s') - (k - g) * s| ≤ 3 / 2 ^ 53 * L := by
    have e : (k * s' - g * s') - ((k : Rat) - g) * s = (k - g) * (s' - s) := by ring
    rw [e, abs_mul]
    calc |(k : Rat) - g| * |s' - s| ≤ |(k : Rat) - g| * (3 / 2 ^ 53 * s) := mul_le_mul_of_nonneg_left hs' (abs_nonneg _)
      _ = 3 / 2 ^ 53 * (|(k : Rat) - g| * s) := by ring
      _ ≤ _ := mul_le_mul_of_nonneg_left hkg (by norm_num)
  have gs : 0 ≤ (g : Rat) * s := mul_nonneg g0 hs.le
  have ks : |(k : Rat) * s| ≤ L := by rw [abs_mul, abs_of_pos hs]; exact hk
  have e1 := flPoint_error hfl (fl (a - fl (g * s'))) s' k
  have e2 := hfl.error (a - fl (g * s'))
  have e3 := hfl.error (g * s')
  set P := (g : Rat) * s'
  set Q := (k : Rat) * s'
  set x := flPoint fl (fl (a - fl P)) s' k
  set o := fl (a - fl P)
  set f := fl P
  set G := (g : Rat) * s
  set D := ((k : Rat) - g) * s
  have hL : 0 ≤ L := gs.trans hg
  have b1 : |P| ≤ (1 + 3 / 2 ^ 53) * L := by
    rw [abs_le] at *; norm_num at *; constructor <;> linarith [hP.1, hP.2]
  have b2 : |Q| ≤ (1 + 3 / 2 ^ 53) * L := by
    rw [abs_le] at hQ ks ⊢; norm_num at *; constructor <;> linarith [hQ.1, hQ.2, ks.1, ks.2]
  have b3 : |f - P| ≤ (1 + 3 / 2 ^ 53) / 2 ^ 53 * L := by
    norm_num at *; linarith
  have b4 : |a - f| ≤ M + 6 / 2 ^ 53 * L := by
    rw [abs_le] at hM hP b3 ⊢; norm_num at *; constructor <;> linarith [hP.1, hP.2, hM.1, hM.2, b3.1, b3.2]
  have b5 : |o - (a - P)| ≤ M / 2 ^ 53 + (2 - 1 / 2) / 2 ^ 53 * L := by
    have : |o - (a - f)| ≤ (M + 6 / 2 ^ 53 * L) / 2 ^ 53 := e2.trans (by gcongr)
    rw [abs_le] at this b3 ⊢; norm_num at *; constructor <;> linarith [this.1, this.2, b3.1, b3.2]
  have b6 : |o + Q| ≤ 2 * M + 6 / 2 ^ 53 * L := by
    have hM0 : 0 ≤ M := (abs_nonneg _).trans hM
    rw [abs_le] at b5 hD hM' ⊢; norm_num at *
    constructor <;> linarith [b5.1, b5.2, hD.1, hD.2, hM'.1, hM'.2]
  have b7 : |x - (o + Q)| ≤ (2 * M + 6 / 2 ^ 53 * L + 2 * ((1 + 3 / 2 ^ 53) * L)) / 2 ^ 53 := e1.trans (by gcongr)
  rw [abs_le] at b5 hD b7 ⊢; norm_num at *
  constructor <;> linarith [b5.1, b5.2, hD.1, hD.2, b7.1, b7.2]

theorem ghost_error (hfl : RoundsAll fl) {a s s' M L : Rat} (hs : 0 < s) (hs' : |s' - s| ≤ 3 / 2 ^ 53 * s) {g k : Nat}
    (hg : g * s ≤ L) (hk : k * s ≤ L) (hM : |a - g * s| ≤ M) (hM' : |a + (k - g) * s| ≤ M) :
    |flPoint fl (fl (a - fl (g * s'))) s' k - (a + ((k : Rat) - g) * s)| ≤ (3 * M + 8 * L) / 2 ^ 53 := by
  have g0 : (0 : Rat) ≤ g := Nat.cast_nonneg g
  have k0 : (0 : Rat) ≤ k := Nat.cast_nonneg k
  refine ghost_error_int hfl (k := (k : Int)) hs hs' hg ?_ ?_ hM hM'
  · rw [Int.cast_natCast, abs_of_nonneg k0]
    exact hk
  · rw [Int.cast_natCast]
    rcases le_total (k : Rat) g with h | h
    · rw [abs_of_nonpos (by linarith)]
      nlinarith
    · rw [abs_of_nonneg (by linarith)]
      nlinarith

/-- The coordinate of the point `k` of a sampling without points before `a`. -/
theorem plain_error (hfl : RoundsAll fl) {a s s' M L : Rat} (hs : 0 < s) (hs' : |s' - s| ≤ 3 / 2 ^ 53 * s) {k : Nat}
    (hk : k * s ≤ L) (hM : |a + k * s| ≤ M) :
    |flPoint fl a s' k - (a + k * s)| ≤ (M + 6 * L) / 2 ^ 53 := by
  have k0 : (0 : Rat) ≤ k := Nat.cast_nonneg k
  have hQ : |k * s' - k * s| ≤ 3 / 2 ^ 53 * L := by
    have e : (k : Rat) * s' - k * s = k * (s' - s) := by ring
    rw [e, abs_mul, abs_of_nonneg k0]
    calc (k : Rat) * |s' - s| ≤ k * (3 / 2 ^ 53 * s) := mul_le_mul_of_nonneg_left hs' k0
      _ = 3 / 2 ^ 53 * (k * s) := by ring
      _ ≤ _ := mul_le_mul_of_nonneg_left hk (by norm_num)
  have ks : 0 ≤ (k : Rat) * s := mul_nonneg k0 hs.le
  have e1 := flPoint_error hfl a s' k
  have hk' : ((k : Int) : Rat) * s' = k * s' := by push_cast; ring
  rw [hk'] at e1
  have hL : 0 ≤ L := ks.trans hk
  have b2 : |k * s'| ≤ (1 + 3 / 2 ^ 53) * L := by
    rw [abs_le] at hQ ⊢; norm_num at *; constructor <;> linarith [hQ.1, hQ.2]
  have b6 : |a + k * s'| ≤ M + 3 / 2 ^ 53 * L := by
    rw [abs_le] at hQ hM ⊢; norm_num at *; constructor <;> linarith [hQ.1, hQ.2, hM.1, hM.2]
  have b7 : |flPoint fl a s' k - (a + k * s')| ≤ (M + 3 / 2 ^ 53 * L + 2 * ((1 + 3 / 2 ^ 53) * L)) / 2 ^ 53 :=
    e1.trans (by gcongr)
  rw [abs_le] at hQ b7 ⊢; norm_num at *
  constructor <;> linarith [hQ.1, hQ.2, b7.1, b7.2]

/-! ## The functions of the model -/

theorem fl_nat (hfl : RoundsAll fl) {n : Nat} (h : n ≤ 2 ^ 53) : fl n = n := by
  have := hfl.exact n (by rw [abs_of_nonneg (by omega)]; exact_mod_cast h)
  exact_mod_cast this

theorem uniformCoordinate_ok (hfl : RoundsAll fl) (t : τ) (o s : Rat) {i : Nat} (hi : i ≤ 2 ^ 53) :
    uniformCoordinate fl (⟨o, s, el t 0⟩ : Uniform τ Rat) (el t i) = .ok (flPoint fl o s i) := by
  rw [uniformCoordinate]
  dsimp only
  rw [sub_nat t (Nat.zero_le i)]
  simp only [Res.ok_bind, vec, Vect.value, Nat.sub_zero, toInt_ofNat (show i < 2 ^ 63 by omega)]
  rw [flPoint, Int.cast_natCast, fl_nat hfl hi]
  rfl

theorem samplingStep_ok (hfl : RoundsAll fl) (t : τ) (a b : Rat) {n : Nat} (hn : 1 < n) (hn' : n ≤ 2 ^ 53) :
    samplingStep fl a b (vec t n) = .ok (fl (fl (b - a) / ((n - 1 : Nat) : Rat))) := by
  rw [samplingStep]
  rw [vec, subInt_nat t (by omega) (by omega), Res.ok_bind]
  simp only [Vect.value, Res.ok_bind, toInt_ofNat (show n - 1 < 2 ^ 63 by omega), Int.cast_natCast]
  rw [fl_nat hfl (by omega)]
  rfl

theorem mkUniform_ok (t : τ) (o : Rat) {s : Rat} (hs : 0 < s) : Uniform.mk' t o s = .ok ⟨o, s, el t 0⟩ := by
  have h0 : (Elem.createReference t : Elem τ) = el t 0 := rfl
  simp [Uniform.mk', hs, h0]

/-- `M` bounds the coordinates between `a` and `b`. -/
theorem between_abs {a b x M : Rat} (ha : |a| ≤ M) (hb : |b| ≤ M) (h1 : a ≤ x) (h2 : x ≤ b) : |x| ≤ M := by
  rw [abs_le] at *
  constructor <;> linarith [ha.1, hb.2]

/-- `init(a, b, n)`, whatever the rounding: the first coordinate is `a` exactly, the coordinates are sorted, all of them are
those of exact arithmetic up to a few units of the last place, and so is the length of the domain.  `ha`: `a` is a `double`. -/
theorem C62_uniform (hfl : RoundsAll fl) (t : τ) {a b : Rat} (ha : fl a = a) (hab : a < b) {n : Nat} (hn : 1 < n)
    (hn' : n ≤ 2 ^ 53) {M : Rat} (hM : |a| ≤ M) (hM' : |b| ≤ M) :
    ∃ u d, ∃ x : Nat → Rat, uniformInit fl t a b [(t, BitVec.ofNat 64 n)] = .ok (u, d) ∧
      tags d = [t] ∧ Valid d ∧ len t d = n ∧
      (∀ k, k < n → uniformCoordinate fl u [(t, BitVec.ofNat 64 (lo t d + k))] = .ok (x k)) ∧
      x 0 = a ∧ (∀ i j, i ≤ j → x i ≤ x j) ∧
      (∀ k, k < n → |x k - (a + k * ((b - a) / ((n - 1 : Nat) : Rat)))| ≤ (M + 6 * (b - a)) / 2 ^ 53) ∧
      |u.step - (b - a) / ((n - 1 : Nat) : Rat)| ≤ 3 / 2 ^ 53 * ((b - a) / ((n - 1 : Nat) : Rat)) ∧
      uniformRmin fl u d = .ok a ∧ uniformRmax fl u d = .ok (x (n - 1)) ∧
      ∃ l, uniformRlength fl u d = .ok l ∧ |l - (b - a)| ≤ (2 * M + 8 * (b - a)) / 2 ^ 53 := by
  obtain ⟨hs0, hs⟩ := flStep_error hfl hab (show 0 < n - 1 by omega)
  have hn1 : (0 : Rat) < ((n - 1 : Nat) : Rat) := by exact_mod_cast (by omega : 0 < n - 1)
  have hd : 0 < b - a := by linarith
  have hsp : 0 < (b - a) / ((n - 1 : Nat) : Rat) := div_pos hd hn1
  have hsn : ((n - 1 : Nat) : Rat) * ((b - a) / ((n - 1 : Nat) : Rat)) = b - a := mul_div_cancel₀ _ hn1.ne'
  set s := (b - a) / ((n - 1 : Nat) : Rat)
  have hle : ∀ k, k < n → (k : Rat) * s ≤ b - a := by
    intro k hk
    rw [← hsn]
    refine mul_le_mul_of_nonneg_right ?_ hsp.le
    exact_mod_cast (by omega : k ≤ n - 1)
  have herr : ∀ k, k < n → |flPoint fl a (fl (fl (b - a) / ((n - 1 : Nat) : Rat))) k - (a + k * s)| ≤
      (M + 6 * (b - a)) / 2 ^ 53 := by
    intro k hk
    refine plain_error hfl hsp hs (hle k hk) (between_abs hM hM' ?_ ?_)
    · have := mul_nonneg (Nat.cast_nonneg (α := Rat) k) hsp.le; linarith
    · have := hle k hk; linarith
  have h00 : fl 0 = 0 := by have := fl_nat hfl (n := 0) (by norm_num); simpa using this
  have hx0 : flPoint fl a (fl (fl (b - a) / ((n - 1 : Nat) : Rat))) (0 : Nat) = a := by
    rw [flPoint]; simp [h00, ha]
  have hlast := herr (n - 1) (by omega)
  rw [hsn] at hlast
  set s' := fl (fl (b - a) / ((n - 1 : Nat) : Rat)) with hs'
  have hmin : uniformRmin fl (⟨a, s', el t 0⟩ : Uniform τ Rat) (seg t 0 n) = .ok a := by
    rw [uniformRmin, One.front, uniformCoordinate_ok hfl t a s' (by omega), hx0]
  have hmax : uniformRmax fl (⟨a, s', el t 0⟩ : Uniform τ Rat) (seg t 0 n) = .ok (flPoint fl a s' (n - 1 : Nat)) := by
    rw [uniformRmax, back_nat t (by omega), Res.ok_bind, uniformCoordinate_ok hfl t a s' (by omega)]
  refine ⟨⟨a, s', el t 0⟩, seg t 0 n, fun k => flPoint fl a s' k, ?_, rfl, (seg_valid (by omega) (by omega)).2, ?_, ?_, hx0,
    fun i j hij => flPoint_mono hfl hs0.le (by exact_mod_cast hij), herr, hs, hmin, hmax, ?_⟩
  · have h1 : decide (1 < ((n : Nat) : Int)) = true := by simpa using hn
    have h2 := samplingStep_ok hfl t a b hn hn'
    rw [vec] at h2
    have h3 := mkUniform_ok t a hs0
    simp only [uniformInit, hab, decide_true, Res.guardAbort_true, Vect.value, toInt_ofNat (show n < 2 ^ 63 by omega), h1,
      Res.ok_bind, h2, ← hs', h3]
    rw [← vec, ofSize_nat]
    simp
  · rw [len, seg_lo (by omega), seg_hi (by omega)]; omega
  · intro k hk
    rw [seg_lo (by omega), Nat.zero_add]
    exact uniformCoordinate_ok hfl t a s' (by omega)
  · refine ⟨fl (flPoint fl a s' (n - 1 : Nat) - a), ?_, ?_⟩
    · rw [uniformRlength, hmax, hmin]; rfl
    · have e := hfl.error (flPoint fl a s' (n - 1 : Nat) - a)
      have hM0 : 0 ≤ M := (abs_nonneg _).trans hM
      have b1 : |flPoint fl a s' (n - 1 : Nat) - a| ≤ (b - a) + (M + 6 * (b - a)) / 2 ^ 53 := by
        rw [abs_le] at hlast ⊢; norm_num at *; constructor <;> linarith [hlast.1, hlast.2]
      have b2 := e.trans (div_le_div_of_nonneg_right b1 (by norm_num : (0 : Rat) ≤ 2 ^ 53))
      rw [abs_le] at hlast b2 ⊢; norm_num at *; constructor <;> linarith [hlast.1, hlast.2, b2.1, b2.2]

/-- The coordinates are strictly increasing if the step is larger than the resolution of the coordinates (`hres`);
see `C62_coincide`. -/
theorem C62_strict (hfl : RoundsAll fl) (t : τ) {a b : Rat} (ha : fl a = a) (hab : a < b) {n : Nat} (hn : 1 < n)
    (hn' : n ≤ 2 ^ 31) {M : Rat} (hM : |a| ≤ M) (hM' : |b| ≤ M) (hres : M * n ≤ 2 ^ 50 * (b - a)) {u : Uniform τ Rat} {d : Dom τ}
    (hu : uniformInit fl t a b [(t, BitVec.ofNat 64 n)] = .ok (u, d)) {i j : Nat} (hij : i < j) (hj : j < n) :
    ∃ x y, uniformCoordinate fl u [(t, BitVec.ofNat 64 (lo t d + i))] = .ok x ∧
      uniformCoordinate fl u [(t, BitVec.ofNat 64 (lo t d + j))] = .ok y ∧ x < y := by
  obtain ⟨u', d', x, e, -, -, -, hx, -, hm, he, -⟩ := C62_uniform hfl t ha hab hn (by omega) hM hM'
  rw [hu] at e
  obtain ⟨rfl, rfl⟩ := Prod.mk.inj (Res.ok.inj e)
  refine ⟨x i, x j, hx i (by omega), hx j hj, ?_⟩
  refine lt_of_lt_of_le ?_ (hm (i + 1) j hij)
  have h1 := he i (by omega)
  have h2 := he (i + 1) (by omega)
  have hn1 : (0 : Rat) < ((n - 1 : Nat) : Rat) := by exact_mod_cast (by omega : 0 < n - 1)
  have hd : 0 < b - a := by linarith
  have hsp : 0 < (b - a) / ((n - 1 : Nat) : Rat) := div_pos hd hn1
  have hsn : ((n - 1 : Nat) : Rat) * ((b - a) / ((n - 1 : Nat) : Rat)) = b - a := mul_div_cancel₀ _ hn1.ne'
  set s := (b - a) / ((n - 1 : Nat) : Rat)
  have hn2 : ((n - 1 : Nat) : Rat) ≤ 2 ^ 31 := by exact_mod_cast (by omega : n - 1 ≤ 2 ^ 31)
  have hM0 : 0 ≤ M := (abs_nonneg _).trans hM
  have r1 : M ≤ 2 ^ 50 * s := by
    have : M * ((n - 1 : Nat) : Rat) ≤ 2 ^ 50 * s * ((n - 1 : Nat) : Rat) := by
      have h3 : M * ((n - 1 : Nat) : Rat) ≤ M * n :=
        mul_le_mul_of_nonneg_left (by exact_mod_cast (by omega : n - 1 ≤ n)) hM0
      have h4 : 2 ^ 50 * s * ((n - 1 : Nat) : Rat) = 2 ^ 50 * (b - a) := by rw [← hsn]; ring
      linarith
    exact le_of_mul_le_mul_right this hn1
  have r2 : b - a ≤ 2 ^ 31 * s := by rw [← hsn]; exact mul_le_mul_of_nonneg_right hn2 hsp.le
  rw [abs_le] at h1 h2
  push_cast at h2
  norm_num at *
  linarith [h1.1, h1.2, h2.1, h2.2]

example : ∃ u d x y, uniformInit round53 "x" (round53 (1 / 10)) 1 [("x", BitVec.ofNat 64 11)] = .ok (u, d) ∧
    uniformCoordinate round53 u [("x", BitVec.ofNat 64 (lo "x" d + 3))] = .ok x ∧
    uniformCoordinate round53 u [("x", BitVec.ofNat 64 (lo "x" d + 4))] = .ok y ∧ x < y := by
  obtain ⟨u, d, -, e, -⟩ := C62_uniform round53_all "x" (a := round53 (1 / 10)) (b := 1) (n := 11) (by decide +kernel)
    (by decide +kernel) (by norm_num) (by norm_num) (M := 1) (by decide +kernel) (by norm_num)
  obtain ⟨x, y, h⟩ := C62_strict round53_all "x" (a := round53 (1 / 10)) (b := 1) (n := 11) (by decide +kernel)
    (by decide +kernel) (by norm_num) (by norm_num) (M := 1) (by decide +kernel) (by norm_num) (by decide +kernel) e
    (show 3 < 4 by norm_num) (by norm_num)
  exact ⟨u, d, x, y, e, h⟩

/-! ## Ghost points -/

/-- `init_ghosted(a, b, n, g1, g2)`, whatever the rounding: the domains are those of exact arithmetic, the coordinates of
the ghosted domain are sorted and are those of exact arithmetic up to a few units of the last place.  `M` bounds the
coordinates of the ghosted domain and `L` its length. -/
theorem C62_ghosted (hfl : RoundsAll fl) (t : τ) {a b : Rat} (hab : a < b) {n g1 g2 : Nat} (hn : 1 < n)
    (hn' : g1 + n + g2 ≤ 2 ^ 53) {s M L : Rat} (hs : s = (b - a) / ((n - 1 : Nat) : Rat)) (hL : (g1 + n + g2 : Nat) * s ≤ L)
    (hM : |a - g1 * s| ≤ M) (hM' : |b + g2 * s| ≤ M) :
    ∃ u main ghosted pre post, ∃ x : Nat → Rat,
      uniformInitGhosted fl t a b [(t, BitVec.ofNat 64 n)] [(t, BitVec.ofNat 64 g1)] [(t, BitVec.ofNat 64 g2)] =
        .ok (u, main, ghosted, pre, post) ∧
      GhostPartition t ghosted pre main post g1 n g2 ∧
      (∀ k, k < g1 + n + g2 → uniformCoordinate fl u [(t, BitVec.ofNat 64 (lo t ghosted + k))] = .ok (x k)) ∧
      (∀ i j, i ≤ j → x i ≤ x j) ∧
      (∀ k, k < g1 + n + g2 → |x k - (a + ((k : Rat) - g1) * s)| ≤ (3 * M + 8 * L) / 2 ^ 53) ∧
      uniformRmin fl u main = .ok (x g1) ∧ uniformRmax fl u main = .ok (x (g1 + n - 1)) := by
  obtain ⟨hs0, hse⟩ := flStep_error hfl hab (show 0 < n - 1 by omega)
  have hn1 : (0 : Rat) < ((n - 1 : Nat) : Rat) := by exact_mod_cast (by omega : 0 < n - 1)
  have hd : 0 < b - a := by linarith
  have hsp : 0 < s := by rw [hs]; exact div_pos hd hn1
  have hsn : ((n - 1 : Nat) : Rat) * s = b - a := by rw [hs]; exact mul_div_cancel₀ _ hn1.ne'
  rw [← hs] at hse
  set s' := fl (fl (b - a) / ((n - 1 : Nat) : Rat)) with hs'
  have hle : ∀ k, k ≤ g1 + n + g2 → (k : Rat) * s ≤ L := by
    intro k hk
    exact (mul_le_mul_of_nonneg_right (by exact_mod_cast hk) hsp.le).trans hL
  set o := fl (a - fl (g1 * s')) with ho
  have herr : ∀ k, k < g1 + n + g2 → |flPoint fl o s' k - (a + ((k : Rat) - g1) * s)| ≤ (3 * M + 8 * L) / 2 ^ 53 := by
    intro k hk
    refine ghost_error hfl hsp hse (hle g1 (by omega)) (hle k (by omega)) hM (between_abs hM hM' ?_ ?_)
    · have := mul_nonneg (Nat.cast_nonneg (α := Rat) k) hsp.le
      linarith
    · have h1 : (k : Rat) * s ≤ ((g1 : Rat) + ((n - 1 : Nat) : Rat) + g2) * s := by
        refine mul_le_mul_of_nonneg_right ?_ hsp.le
        exact_mod_cast (by omega : k ≤ g1 + (n - 1) + g2)
      linarith
  have hco : ∀ i, i ≤ 2 ^ 53 → uniformCoordinate fl (⟨o, s', el t 0⟩ : Uniform τ Rat) (el t i) = .ok (flPoint fl o s' i) :=
    fun i hi => uniformCoordinate_ok hfl t o s' hi
  obtain ⟨d1, d2, d3, d4, d5, d6⟩ := ghost_domains t g1 n g2 (by omega)
  refine ⟨⟨o, s', el t 0⟩, seg t g1 (g1 + n), seg t 0 (n + g1 + g2), seg t 0 g1, seg t (g1 + n) (n + g1 + g2),
    fun k => flPoint fl o s' k, ?_, partition_seg t g1 n g2 (by omega), ?_,
    fun i j hij => flPoint_mono hfl hs0.le (by exact_mod_cast hij), herr, ?_, ?_⟩
  · have h1 : decide (1 < ((n : Nat) : Int)) = true := by simpa using hn
    have h2 := samplingStep_ok hfl t a b hn (by omega)
    rw [vec] at h2
    have h3 := mkUniform_ok t o hs0
    simp only [uniformInitGhosted, hab, decide_true, Res.guardAbort_true, Vect.value,
      toInt_ofNat (show n < 2 ^ 63 by omega), toInt_ofNat (show g1 < 2 ^ 63 by omega), h1, Res.ok_bind, h2, ← hs',
      Int.cast_natCast, fl_nat hfl (show g1 ≤ 2 ^ 53 by omega), ← ho, h3]
    simp only [vec] at d1 d2 d3 d4 d5 d6
    rw [d1, Res.ok_bind, d2, Res.ok_bind, d3, Res.ok_bind, d4, Res.ok_bind, d5, Res.ok_bind, d6]
    rfl
  · intro k hk
    rw [seg_lo (by omega), Nat.zero_add]
    exact hco k (by omega)
  · rw [uniformRmin, One.front, hco _ (by omega)]
  · rw [uniformRmax, back_nat t (by omega), Res.ok_bind, hco _ (by omega)]

example : ∃ u main ghosted pre post x,
    uniformInitGhosted round53 "x" 0 1 [("x", BitVec.ofNat 64 11)] [("x", BitVec.ofNat 64 3)] [("x", BitVec.ofNat 64 2)] =
      .ok (u, main, ghosted, pre, post) ∧ uniformRmin round53 u main = .ok x ∧ |x| ≤ 20 / 2 ^ 53 := by
  obtain ⟨u, main, ghosted, pre, post, x, e, -, -, -, he, h, -⟩ := C62_ghosted round53_all "x" (a := 0) (b := 1) (n := 11)
    (g1 := 3) (g2 := 2) (by norm_num) (by norm_num) (by norm_num) (s := 1 / 10) (M := 6 / 5) (L := 8 / 5) (by norm_num)
    (by norm_num) (by rw [abs_le]; norm_num) (by rw [abs_le]; norm_num)
  refine ⟨u, main, ghosted, pre, post, _, e, h, ?_⟩
  have := he 3 (by norm_num)
  norm_num at this ⊢
  linarith

/-! ## Periodic sampling -/

theorem fl_int (hfl : RoundsAll fl) {k : Int} (h : |k| ≤ 2 ^ 53) : fl k = k := hfl.exact k h

theorem periodicCoordinate_ok (hfl : RoundsAll fl) (u : Periodic τ Rat) (t : τ) (hr : u.ref = [(t, 0)]) (n : Nat)
    (hn : u.period.toNat = n) (h0 : 0 < n) (h1 : n ≤ 2 ^ 31) (i : Nat) (hi : i + n / 2 < 2 ^ 64) :
    periodicCoordinate fl u [(t, BitVec.ofNat 64 i)] =
      .ok (flPoint fl u.origin u.step (((i + n / 2) % n : Nat) - (n / 2 : Nat) : Int)) := by
  have e2 : (u.period / 2).toNat = n / 2 := by rw [BitVec.toNat_udiv, hn]; rfl
  have hp : u.period ≠ 0 := by
    intro h; rw [h] at hn; subst hn; exact absurd h0 (by decide)
  have hr' : u.ref = el t 0 := hr
  simp only [periodicCoordinate, hr']
  rw [show [(t, BitVec.ofNat 64 i)] = el t i from rfl, sub_nat t (Nat.zero_le i)]
  simp only [Res.ok_bind, vec, Vect.addSize, Vect.value, Nat.sub_zero, Periodic.umod, if_neg hp]
  have e3 : ((BitVec.ofNat 64 i + u.period / 2) % u.period).toNat = (i + n / 2) % n := by
    rw [BitVec.toNat_umod, BitVec.toNat_add, e2, BitVec.toNat_ofNat, hn]
    congr 1; omega
  have hm := Nat.mod_lt (i + n / 2) h0
  have e4 := toInt32_small (x := (BitVec.ofNat 64 i + u.period / 2) % u.period) (by omega)
  have e5 := toInt32_small (x := u.period / 2) (by omega)
  rw [Periodic.int32Sub, e4, e5, e3, e2, if_pos ⟨by omega, by omega⟩, Res.ok_bind, flPoint, fl_int hfl (by rw [abs_le]; omega)]
  rfl

/-- `coordinate` of a periodic sampling, whatever the rounding: the coordinates of two indices that are equal modulo the period
are exactly equal, and they are within a few units of the last place of `origin + k * step` for the representative `k`
of the index in `[-(n/2), n - n/2)`.
Missing: periods above `2³¹` and indices within half a period of `2⁶⁴` (`C29_int_overflow`, `C29_index_wraps`). -/
theorem C62_periodic_partial (hfl : RoundsAll fl) (u : Periodic τ Rat) (t : τ) (hr : u.ref = [(t, 0)]) (n : Nat)
    (hn : u.period.toNat = n) (h0 : 0 < n) (h1 : n ≤ 2 ^ 31) :
    (∀ i j, i + n / 2 < 2 ^ 64 → j + n / 2 < 2 ^ 64 → i % n = j % n →
      periodicCoordinate fl u [(t, BitVec.ofNat 64 i)] = periodicCoordinate fl u [(t, BitVec.ofNat 64 j)]) ∧
    ∀ i, i + n / 2 < 2 ^ 64 → ∃ (x : Rat) (k : Int), periodicCoordinate fl u [(t, BitVec.ofNat 64 i)] = .ok x ∧
      -((n / 2 : Nat) : Int) ≤ k ∧ k < (n : Int) - (n / 2 : Nat) ∧ (n : Int) ∣ (i : Int) - k ∧
      |x - (u.origin + k * u.step)| ≤ (|u.origin + k * u.step| + 2 * |k * u.step|) / 2 ^ 53 := by
  have key := periodicCoordinate_ok hfl u t hr n hn h0 h1
  refine ⟨fun i j hi hj hij => ?_, fun i hi => ⟨_, _, key i hi, by omega, ?_, ?_, flPoint_error hfl _ _ _⟩⟩
  · rw [key i hi, key j hj, Nat.add_mod i, Nat.add_mod j, hij]
  · have := Nat.mod_lt (i + n / 2) h0
    omega
  · refine ⟨((i + n / 2) / n : Nat), ?_⟩
    have := Nat.div_add_mod (i + n / 2) n
    have h2 : (n : Int) * ((i + n / 2) / n : Nat) + ((i + n / 2) % n : Nat) = (i : Int) + (n / 2 : Nat) := by
      exact_mod_cast this
    omega

/-- `init(a, b, n, n_period)`: the attributes that the previous theorem takes. -/
theorem C62_periodic_init (hfl : RoundsAll fl) (t : τ) {a b : Rat} (hab : a < b) {n p : Nat} (hn : 1 < n)
    (hn' : n ≤ 2 ^ 53) (hp : 1 < p) (hp' : p < 2 ^ 63) :
    ∃ u d, periodicInit fl t a b [(t, BitVec.ofNat 64 n)] [(t, BitVec.ofNat 64 p)] = .ok (u, d) ∧ u.origin = a ∧
      u.ref = [(t, 0)] ∧ u.period.toNat = p ∧ tags d = [t] ∧ lo t d = 0 ∧ hi t d = n ∧ 0 < u.step ∧
      |u.step - (b - a) / ((n - 1 : Nat) : Rat)| ≤ 3 / 2 ^ 53 * ((b - a) / ((n - 1 : Nat) : Rat)) := by
  obtain ⟨hs0, hse⟩ := flStep_error hfl hab (show 0 < n - 1 by omega)
  refine ⟨⟨a, _, BitVec.ofNat 64 p, el t 0⟩, seg t 0 n, ?_, rfl, rfl, ?_, rfl, seg_lo (by omega), seg_hi (by omega), hs0, hse⟩
  · have h1 : decide (1 < ((n : Nat) : Int)) = true := by simpa using hn
    have h1' : decide (1 < ((p : Nat) : Int)) = true := by simpa using hp
    have h2 := samplingStep_ok hfl t a b hn hn'
    rw [vec] at h2
    have hp0 : decide ((0 : U64) < BitVec.ofNat 64 p) = true := by
      rw [decide_eq_true_eq, BitVec.lt_def, BitVec.toNat_ofNat, Nat.mod_eq_of_lt (by omega)]
      exact (by omega : 0 < p)
    have h0 : (Elem.createReference t : Elem τ) = el t 0 := rfl
    simp only [periodicInit, hab, decide_true, Res.guardAbort_true, Vect.value, toInt_ofNat (show n < 2 ^ 63 by omega),
      toInt_ofNat hp', h1, h1', Res.ok_bind, h2, Periodic.mk', hs0, hp0, h0]
    rw [← vec]
    have := ofSize_nat t 0 n
    rw [Nat.zero_add] at this
    show (Dom.ofSize (el t 0) (vec t n) >>= fun dom => _) = _
    rw [this]
    rfl
  · rw [BitVec.toNat_ofNat]; omega

example : ∃ u d, periodicInit round53 "x" 0 1 [("x", BitVec.ofNat 64 4)] [("x", BitVec.ofNat 64 10)] = .ok (u, d) ∧
    periodicCoordinate round53 u [("x", BitVec.ofNat 64 3)] = periodicCoordinate round53 u [("x", BitVec.ofNat 64 23)] := by
  obtain ⟨u, d, e, -, h1, h2, -⟩ := C62_periodic_init round53_all "x" (a := 0) (b := 1) (n := 4) (p := 10) (by norm_num)
    (by norm_num) (by norm_num) (by norm_num) (by norm_num)
  exact ⟨u, d, e, (C62_periodic_partial round53_all u "x" h1 10 h2 (by norm_num) (by norm_num)).1 3 23 (by norm_num)
    (by norm_num) (by norm_num)⟩

/-! ## What rounding destroys -/

/-- `init_ghosted(a, b, n, n_period, g1, g2)` of a periodic sampling, whatever the rounding: the domains are those of exact
arithmetic; the coordinates of indices that are equal modulo the period are exactly equal; an index of the first half period
(ghosts before included) has the coordinate of exact arithmetic, up to a few units of the last place; and so has any index for
its representative in `[-(p/2), p - p/2)`.  `M` bounds the coordinates and `L` the lengths `|k| * s` and `|k - g1| * s`. -/
theorem C62_periodic_ghosted (hfl : RoundsAll fl) (t : τ) {a b : Rat} (hab : a < b) {n p g1 g2 : Nat} (hn : 1 < n)
    (hn' : g1 + n + g2 ≤ 2 ^ 53) (hp : 1 < p) (hp' : p ≤ 2 ^ 31) {s : Rat} (hs : s = (b - a) / ((n - 1 : Nat) : Rat)) :
    ∃ u main ghosted pre post,
      periodicInitGhosted fl t a b [(t, BitVec.ofNat 64 n)] [(t, BitVec.ofNat 64 p)] [(t, BitVec.ofNat 64 g1)]
        [(t, BitVec.ofNat 64 g2)] = .ok (u, main, ghosted, pre, post) ∧
      GhostPartition t ghosted pre main post g1 n g2 ∧ lo t ghosted = 0 ∧ u.period.toNat = p ∧ u.ref = [(t, 0)] ∧
      (∀ i j, i < g1 + n + g2 → j < g1 + n + g2 → i % p = j % p →
        periodicCoordinate fl u [(t, BitVec.ofNat 64 i)] = periodicCoordinate fl u [(t, BitVec.ofNat 64 j)]) ∧
      ∀ i, i < g1 + n + g2 → ∃ (x : Rat) (k : Int), periodicCoordinate fl u [(t, BitVec.ofNat 64 i)] = .ok x ∧
        -((p / 2 : Nat) : Int) ≤ k ∧ k < (p : Int) - (p / 2 : Nat) ∧ (p : Int) ∣ (i : Int) - k ∧
        (i < p - p / 2 → k = i) ∧
        ∀ M L : Rat, g1 * s ≤ L → |(k : Rat)| * s ≤ L → |(k : Rat) - g1| * s ≤ L → |a - g1 * s| ≤ M →
          |a + (k - g1) * s| ≤ M → |x - (a + (k - g1) * s)| ≤ (3 * M + 8 * L) / 2 ^ 53 := by
  obtain ⟨hs0, hse⟩ := flStep_error hfl hab (show 0 < n - 1 by omega)
  have hn1 : (0 : Rat) < ((n - 1 : Nat) : Rat) := by exact_mod_cast (by omega : 0 < n - 1)
  have hsp : 0 < s := by rw [hs]; exact div_pos (by linarith) hn1
  rw [← hs] at hse
  set s' := fl (fl (b - a) / ((n - 1 : Nat) : Rat)) with hs'
  set o := fl (a - fl (g1 * s')) with ho
  obtain ⟨d1, d2, d3, d4, d5, d6⟩ := ghost_domains t g1 n g2 (by omega)
  set u : Periodic τ Rat := ⟨o, s', BitVec.ofNat 64 p, el t 0⟩ with hu
  have hper : u.period.toNat = p := by rw [hu, BitVec.toNat_ofNat]; omega
  have key := periodicCoordinate_ok hfl u t rfl p hper (by omega) hp'
  refine ⟨u, seg t g1 (g1 + n), seg t 0 (n + g1 + g2), seg t 0 g1, seg t (g1 + n) (n + g1 + g2), ?_,
    partition_seg t g1 n g2 (by omega), seg_lo (by omega), hper, rfl, ?_, ?_⟩
  · have h1 : decide (1 < ((n : Nat) : Int)) = true := by simpa using hn
    have h1' : decide (1 < ((p : Nat) : Int)) = true := by simpa using hp
    have h2 := samplingStep_ok hfl t a b hn (by omega)
    rw [vec] at h2
    have hp0 : decide ((0 : U64) < BitVec.ofNat 64 p) = true := by
      rw [decide_eq_true_eq, BitVec.lt_def, BitVec.toNat_ofNat, Nat.mod_eq_of_lt (by omega)]
      exact (by omega : 0 < p)
    have h0 : (Elem.createReference t : Elem τ) = el t 0 := rfl
    simp only [periodicInitGhosted, hab, decide_true, Res.guardAbort_true, Vect.value,
      toInt_ofNat (show n < 2 ^ 63 by omega), toInt_ofNat (show g1 < 2 ^ 63 by omega), toInt_ofNat (show p < 2 ^ 63 by omega),
      h1, h1', Res.ok_bind, h2, ← hs', Int.cast_natCast, fl_nat hfl (show g1 ≤ 2 ^ 53 by omega), ← ho, Periodic.mk', hs0,
      hp0, h0, Res.pure_eq]
    simp only [vec] at d1 d2 d3 d4 d5 d6
    rw [d1, Res.ok_bind, d2, Res.ok_bind, d3, Res.ok_bind, d4, Res.ok_bind, d5, Res.ok_bind, d6]
    rfl
  · intro i j hi hj hij
    rw [key i (by omega), key j (by omega), Nat.add_mod i, Nat.add_mod j, hij]
  · intro i hi
    have hm := Nat.mod_lt (i + p / 2) (show 0 < p by omega)
    refine ⟨_, (((i + p / 2) % p : Nat) - (p / 2 : Nat) : Int), key i (by omega), by omega, by omega, ?_, ?_, ?_⟩
    · refine ⟨((i + p / 2) / p : Nat), ?_⟩
      have := Nat.div_add_mod (i + p / 2) p
      have h2 : (p : Int) * ((i + p / 2) / p : Nat) + ((i + p / 2) % p : Nat) = (i : Int) + (p / 2 : Nat) := by
        exact_mod_cast this
      omega
    · intro h
      rw [Nat.mod_eq_of_lt (by omega)]
      omega
    · intro M L h1 h2 h3 h4 h5
      exact ghost_error_int hfl (g := g1) (k := (((i + p / 2) % p : Nat) - (p / 2 : Nat) : Int)) hsp hse h1 h2 h3 h4 h5

/-- Eleven points from 0 to 1, three ghosts before, period 40: the first point of the main domain is 0 up to rounding. -/
example : ∃ u main ghosted pre post x,
    periodicInitGhosted round53 "x" 0 1 [("x", BitVec.ofNat 64 11)] [("x", BitVec.ofNat 64 40)] [("x", BitVec.ofNat 64 3)]
      [("x", BitVec.ofNat 64 2)] = .ok (u, main, ghosted, pre, post) ∧
    periodicCoordinate round53 u [("x", BitVec.ofNat 64 3)] = .ok x ∧ |x| ≤ 20 / 2 ^ 53 := by
  obtain ⟨u, main, ghosted, pre, post, e, -, -, -, -, -, h⟩ := C62_periodic_ghosted round53_all "x" (a := 0) (b := 1)
    (n := 11) (p := 40) (g1 := 3) (g2 := 2) (by norm_num) (by norm_num) (by norm_num) (by norm_num) (by norm_num)
    (s := 1 / 10) (by norm_num)
  obtain ⟨x, k, hx, -, -, -, hk, he⟩ := h 3 (by norm_num)
  obtain rfl := hk (by norm_num)
  refine ⟨u, main, ghosted, pre, post, x, e, hx, ?_⟩
  have := he (6 / 5) (8 / 5) (by norm_num) (by norm_num) (by norm_num) (by rw [abs_le]; norm_num) (by norm_num)
  norm_num at this ⊢
  linarith

/-- With the rounding of IEEE 754, the last of 12 points of `[0, 0.1]` is larger than `0.1`. -/
theorem C62_last : ∃ b : Rat, b = round53 (1 / 10) ∧ ∃ u d, uniformInit round53 "x" 0 b [("x", 12)] = .ok (u, d) ∧
    uniformRmax round53 u d = .ok (b + 1 / 2 ^ 56) := by
  refine ⟨_, rfl, ?_⟩
  obtain ⟨u, d, -, e, -⟩ := C62_uniform round53_all "x" (a := 0) (b := round53 (1 / 10)) (n := 12) (by decide +kernel)
    (by decide +kernel) (by norm_num) (by norm_num) (M := 1) (by decide +kernel) (by decide +kernel)
  refine ⟨u, d, e, ?_⟩
  have : (uniformInit round53 "x" 0 (round53 (1 / 10)) [("x", 12)] >>= fun r => uniformRmax round53 r.1 r.2) =
    .ok (round53 (1 / 10) + 1 / 2 ^ 56) := by decide +kernel
  rw [show ([("x", 12)] : Vect String) = [("x", BitVec.ofNat 64 12)] from rfl, e] at this
  exact this

/-- With one ghost point, the first of 8 points of `[-2, 1]` is not `-2`. -/
theorem C62_ghosted_first : (uniformInitGhosted round53 "x" (-2) 1 [("x", 8)] [("x", 1)] [("x", 0)] >>= fun r =>
    uniformRmin round53 r.1 r.2.1) = .ok (-2 + 1 / 2 ^ 52) := by decide +kernel

/-- Points that are closer than the resolution coincide: 5 points on `[2⁵³, 2⁵³ + 2]`. -/
theorem C62_coincide : (uniformInit round53 "x" (2 ^ 53) (2 ^ 53 + 2) [("x", 5)] >>= fun r => do
    let x ← uniformCoordinate round53 r.1 [("x", 0)]
    let y ← uniformCoordinate round53 r.1 [("x", 1)]
    pure (x, y)) = .ok (2 ^ 53, 2 ^ 53) := by decide +kernel

end DDC.Props
