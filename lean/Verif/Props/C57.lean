import Verif.Model.MathTools
import Verif.Model.Builder
import Verif.Spec.Float
import Verif.Lemmas.Loop
import Mathlib.Data.Nat.Factorial.Basic
import Mathlib.Tactic.LinearCombination
import Mathlib.Tactic.Linarith
import Mathlib.Tactic.IntervalCases

/-!
# C57: the numerical helpers compute what their names say
-/

namespace DDC.Props

open MathTools Spec

/-! ## Sums -/

section Sums

variable {K : Type} [Field K]

theorem rd_ofList (l : List K) {i : Nat} (h : i < l.length) : (Arr.ofList l).rd i = .ok l[i] := by
  rw [Arr.rd, if_pos (show i < (Arr.ofList l).size from h)]
  simp [Arr.ofList, h]

theorem rd_ofList_ub (l : List K) {i : Nat} (h : l.length ≤ i) : (Arr.ofList l).rd i = .ub := by
  rw [Arr.rd, if_neg (show ¬i < (Arr.ofList l).size from by simpa [Arr.ofList] using h)]

theorem sum_loop (l : List K) (n lo : Nat) (h : lo + n ≤ l.length) :
    forLoop (fun i (val : K) => do
      let x ← (Arr.ofList l).rd i
      pure (val + x)) lo n 0 = .ok ((l.drop lo).take n).sum := by
  induction n with
  | zero => simp [forLoop]
  | succ n ih =>
    rw [forLoop_snoc, ih (by omega), Res.ok_bind, rd_ofList l (show lo + n < l.length by omega), Res.ok_bind]
    rw [List.take_succ, List.getElem?_drop, List.getElem?_eq_getElem (by omega)]
    simp

/-- `sum` adds the entries that it is asked for. -/
theorem C57_sum (l : List K) :
    sumSpan (Arr.ofList l) = .ok l.sum ∧
      (∀ n : Nat, n ≤ l.length → sumPtr (Arr.ofList l) n = .ok (l.take n).sum) ∧
      ∀ s e : Nat, e ≤ l.length → sumRange (Arr.ofList l) s e = .ok ((l.take e).drop s).sum := by
  refine ⟨?_, fun n hn => ?_, fun s e he => ?_⟩
  · rw [sumSpan, show (Arr.ofList l).size = l.length from rfl, sum_loop l _ _ (by omega)]
    simp
  · rw [sumPtr, Int.toNat_natCast, sum_loop l _ _ (by omega)]
    simp
  · rw [sumRange]
    by_cases h : s < e
    · rw [if_pos (by exact_mod_cast h), if_neg (by omega), Int.toNat_natCast,
        show ((e : Int) - s).toNat = e - s by omega, sum_loop l _ _ (by omega), List.drop_take]
    · rw [if_neg (by exact_mod_cast h), List.drop_eq_nil_of_le (by simp; omega)]
      simp

theorem sum_loop_ub (l : List K) (n lo : Nat) (v : K) (hn : 0 < n) (h : l.length < lo + n) :
    forLoop (fun i (val : K) => do
      let x ← (Arr.ofList l).rd i
      pure (val + x)) lo n v = .ub := by
  induction n generalizing lo v with
  | zero => omega
  | succ n ih =>
    rw [forLoop]
    by_cases hl : lo < l.length
    · rw [rd_ofList l hl]
      exact ih (lo + 1) _ (by omega) (by omega)
    · rw [rd_ofList_ub l (by omega)]
      rfl

/-- Beyond the end, or before the beginning, the sum is undefined. -/
theorem C57_sum_out_of_bounds (l : List K) :
    (∀ n : Nat, l.length < n → sumPtr (Arr.ofList l) n = .ub) ∧
      ∀ s e : Int, s < e → s < 0 ∨ l.length < e → sumRange (Arr.ofList l) s e = .ub := by
  refine ⟨fun n h => ?_, fun s e h h' => ?_⟩
  · rw [sumPtr, Int.toNat_natCast]
    exact sum_loop_ub l n 0 0 (by omega) (by omega)
  · rw [sumRange, if_pos h]
    by_cases hs : s < 0
    · rw [if_pos hs]
    · rw [if_neg hs]
      exact sum_loop_ub l _ _ 0 (by omega) (by omega)

/-- `dot_product` is the sum of the products. -/
theorem C57_dot (a b : List K) (h : a.length = b.length) :
    dotProduct a.length (Arr.ofList a) (Arr.ofList b) = .ok (List.zipWith (· * ·) a b).sum := by
  have key : ∀ n, n ≤ a.length → forLoop (fun i (result : K) => do
      let x ← (Arr.ofList a).rd i
      let y ← (Arr.ofList b).rd i
      pure (result + x * y)) 0 n 0 = .ok ((List.zipWith (· * ·) a b).take n).sum := by
    intro n
    induction n with
    | zero => intro _; simp [forLoop]
    | succ n ih =>
      intro hn
      rw [forLoop_snoc, ih (by omega), Res.ok_bind, Nat.zero_add, rd_ofList a (by omega), Res.ok_bind,
        rd_ofList b (by omega), Res.ok_bind, List.take_succ, List.getElem?_eq_getElem (by simp; omega)]
      simp
  rw [dotProduct, key _ (le_refl _), List.take_of_length_le (by simp)]

example : sumRange (Arr.ofList [1, 2, 3, (4 : Rat)]) 1 3 = .ok 5 := by decide +kernel
example : sumRange (Arr.ofList [1, 2, 3, (4 : Rat)]) 3 1 = .ok 0 := by decide +kernel
example : dotProduct 3 (Arr.ofList [1, 2, (3 : Rat)]) (Arr.ofList [4, 5, 6]) = .ok 32 := by decide +kernel

/-! ## Powers -/

theorem pow_loop (a : K) (n : Nat) : forLoop (fun _ (r : K) => .ok (r * a)) 0 n 1 = .ok (a ^ n) := by
  induction n with
  | zero => simp [forLoop]
  | succ n ih => rw [forLoop_snoc, ih, Res.ok_bind, pow_succ]

/-- `ipow` is the power, also for a negative exponent; it is what the model of the builder uses. -/
theorem C57_ipow (a : K) : (∀ i : U64, ipowSize a i = .ok (a ^ i.toNat) ∧ DDC.ipow a i.toNat = a ^ i.toNat) ∧
    ∀ i : BitVec 32, i.toInt ≠ -2 ^ 31 → ipowInt a i = .ok (a ^ i.toInt) := by
  refine ⟨fun i => ⟨pow_loop a _, ?_⟩, fun i hi => ?_⟩
  · induction i.toNat with
    | zero => simp [DDC.ipow]
    | succ n ih => rw [DDC.ipow, ih, pow_succ]
  · rw [ipowInt]
    by_cases h : 0 < i.toInt
    · rw [if_pos h, pow_loop, ← zpow_natCast, Int.toNat_of_nonneg h.le]
    · rw [if_neg h]
      by_cases h' : i.toInt < 0
      · rw [if_pos h', if_neg hi, pow_loop, Res.ok_bind, ← zpow_natCast, Int.toNat_of_nonneg (by omega), zpow_neg]
        simp
      · rw [if_neg h', show i.toInt = 0 by omega]
        simp

/-- The smallest exponent is undefined behaviour. -/
theorem C57_ipow_min (a : K) : ipowInt a (BitVec.intMin 32) = .ub := by
  rw [ipowInt, if_neg (by decide), if_pos (by decide), if_pos (by decide)]

example : ipowInt (2 : Rat) (-3) = .ok (1 / 8) := by decide +kernel

end Sums

/-! ## Factorial -/

theorem factorialLoop_eq (b : U64) (fuel : Nat) (i r : U64) (h1 : 1 ≤ i.toNat) (h2 : i.toNat ≤ b.toNat)
    (hf : b.toNat - i.toNat ≤ fuel) (hr : r.toNat = (i.toNat - 1).factorial % 2 ^ 64) :
    (factorialLoop b fuel i r).toNat = (b.toNat - 1).factorial % 2 ^ 64 := by
  induction fuel generalizing i r with
  | zero => rw [factorialLoop, hr, show i.toNat = b.toNat by omega]
  | succ fuel ih =>
    rw [factorialLoop]
    by_cases h : i < b
    · rw [if_pos h]
      have hlt : i.toNat < b.toNat := h
      have hi : (i + 1).toNat = i.toNat + 1 := by
        have := b.isLt
        rw [BitVec.toNat_add]
        exact Nat.mod_eq_of_lt (by simp; omega)
      refine ih (i + 1) (r * i) (by omega) (by omega) (by omega) ?_
      rw [hi, BitVec.toNat_mul, hr, Nat.mod_mul_mod, Nat.add_sub_cancel]
      obtain ⟨k, hk⟩ : ∃ k, i.toNat = k + 1 := ⟨i.toNat - 1, by omega⟩
      rw [hk, Nat.add_sub_cancel, Nat.factorial_succ, Nat.mul_comm]
    · rw [if_neg h, hr, show i.toNat = b.toNat by
        have : ¬i.toNat < b.toNat := h
        omega]

/-- `factorial` is the factorial modulo `2^64`, hence exact up to 20; the largest argument gives 1. -/
theorem C57_factorial_partial : (∀ f : U64, f ≠ BitVec.allOnes 64 → (MathTools.factorial f).toNat = f.toNat.factorial % 2 ^ 64) ∧
    (∀ f : U64, f.toNat ≤ 20 → (MathTools.factorial f).toNat = f.toNat.factorial) ∧
    MathTools.factorial (BitVec.allOnes 64) = 1 := by
  have key : ∀ f : U64, f ≠ BitVec.allOnes 64 → (MathTools.factorial f).toNat = f.toNat.factorial % 2 ^ 64 := by
    intro f hf
    have h1 : (f + 1).toNat = f.toNat + 1 := by
      have hlt := f.isLt
      have : f.toNat ≠ 2 ^ 64 - 1 := fun e => hf (by apply BitVec.eq_of_toNat_eq; rw [e]; decide)
      rw [BitVec.toNat_add]
      exact Nat.mod_eq_of_lt (by simp; omega)
    by_cases h0 : f.toNat = 0
    · obtain rfl : f = 0 := BitVec.eq_of_toNat_eq h0
      rw [MathTools.factorial, show (2 : Nat) ^ 64 = (2 ^ 64 - 1) + 1 from by norm_num, factorialLoop, if_neg (by decide)]
      decide
    · rw [MathTools.factorial, factorialLoop_eq (f + 1) (2 ^ 64) 2 1 (by decide) (by
        show 2 ≤ _
        omega) (by omega) (by decide), h1, Nat.add_sub_cancel]
  refine ⟨key, fun f hf => ?_, ?_⟩
  · rw [key f (fun e => by rw [e] at hf; revert hf; decide)]
    refine Nat.mod_eq_of_lt (lt_of_le_of_lt (Nat.factorial_le hf) (by decide))
  · rw [MathTools.factorial, show (2 : Nat) ^ 64 = (2 ^ 64 - 1) + 1 from by norm_num, factorialLoop, if_neg (by decide)]

/-- From 21 on the factorial does not fit. -/
theorem C57_factorial_wraps (f : U64) (h : 21 ≤ f.toNat) : (MathTools.factorial f).toNat ≠ f.toNat.factorial := by
  intro e
  have h1 := (MathTools.factorial f).isLt
  have h2 := Nat.factorial_le h
  have h3 : 2 ^ 64 < (21).factorial := by decide
  omega

example : MathTools.factorial 5 = 120 := by
  apply BitVec.eq_of_toNat_eq
  rw [C57_factorial_partial.2.1 5 (by decide)]
  decide

/-! ## Modulo -/

/-- `modulo` on integers of up to 53 bits is the remainder with the sign of the divisor, in spite of the
rounding of the quotient. -/
theorem C57_modulo_partial {fl : Rat → Rat} (hfl : Rounds fl) (w : Nat) (x y : Int) (hy : y ≠ 0)
    (hxy : |x| + |y| ≤ 2 ^ 53) (hw : -2 ^ (w - 1) ≤ y) (hw' : y < 2 ^ (w - 1)) :
    MathTools.modulo fl w x y = .ok (Int.fmod x y) := by
  have hx1 := abs_nonneg x
  have hy1 : 1 ≤ |y| := Int.one_le_abs hy
  have e1 : fl x = x := hfl.exact x (by omega)
  have e2 : fl y = y := hfl.exact y (by omega)
  have hyq : (y : Rat) ≠ 0 := by exact_mod_cast hy
  obtain ⟨m, hm⟩ : ∃ m, m = Int.fdiv x y := ⟨_, rfl⟩
  obtain ⟨r, hr⟩ : ∃ r, r = Int.fmod x y := ⟨_, rfl⟩
  have hdiv : x = y * m + r := by rw [hm, hr]; exact (Int.mul_fdiv_add_fmod x y).symm
  have hrng : 0 < y ∧ 0 ≤ r ∧ r < y ∨ y < 0 ∧ y < r ∧ r ≤ 0 := by
    rcases lt_or_gt_of_ne hy with h | h
    · right
      refine ⟨h, ?_, ?_⟩
      · rw [hr]
        have := Int.fmod_lt_of_pos (-x) (show 0 < -y by omega)
        have := Int.neg_fmod_neg x y
        omega
      · rw [hr]
        have := Int.fmod_nonneg_of_pos (-x) (show 0 < -y by omega)
        have := Int.neg_fmod_neg x y
        omega
    · exact .inl ⟨h, by rw [hr]; exact Int.fmod_nonneg_of_pos x h, by rw [hr]; exact Int.fmod_lt_of_pos x h⟩
  have hya : (0 : Rat) < |(y : Rat)| := abs_pos.2 hyq
  have hq : (x : Rat) / y = m + (r : Rat) / y := by
    rw [hdiv]; push_cast; field_simp
  have hr1 : r ≠ 0 → 1 / |(y : Rat)| ≤ (r : Rat) / y ∧ (r : Rat) / y ≤ 1 - 1 / |(y : Rat)| := by
    intro h0
    rcases hrng with ⟨h, h1, h2⟩ | ⟨h, h1, h2⟩
    · have hy0 : (0 : Rat) < y := by exact_mod_cast h
      rw [abs_of_pos hy0, one_sub_div hyq]
      have g1 : (1 : Rat) ≤ r := by exact_mod_cast (show 1 ≤ r by omega)
      have g2 : (r : Rat) ≤ y - 1 := by
        have : r ≤ y - 1 := by omega
        exact_mod_cast this
      exact ⟨div_le_div_of_nonneg_right g1 hy0.le, div_le_div_of_nonneg_right g2 hy0.le⟩
    · have hy0 : (y : Rat) < 0 := by exact_mod_cast h
      have hy1 : (0 : Rat) < -y := by linarith
      rw [abs_of_neg hy0, one_sub_div hy1.ne', ← neg_div_neg_eq (r : Rat)]
      have g1 : (1 : Rat) ≤ -r := by
        have : 1 ≤ -r := by omega
        exact_mod_cast this
      have g2 : -(r : Rat) ≤ -y - 1 := by
        have : -r ≤ -y - 1 := by omega
        exact_mod_cast this
      exact ⟨div_le_div_of_nonneg_right g1 hy1.le, div_le_div_of_nonneg_right g2 hy1.le⟩
  have hrabs : |r| ≤ |y| - 1 := by
    rcases hrng with ⟨h, h1, h2⟩ | ⟨h, h1, h2⟩
    · rw [abs_of_pos h, abs_of_nonneg h1]; omega
    · rw [abs_of_neg h, abs_of_nonpos h2]; omega
  have hym : |y * m| ≤ 2 ^ 53 := by
    have : y * m = x - r := by omega
    rw [this]
    have := abs_sub x r
    omega
  have hfloor : ⌊fl ((x : Rat) / y)⌋ = m := by
    by_cases h0 : r = 0
    · have hm' : |m| ≤ 2 ^ 53 := by
        have : |m| ≤ |y * m| := by
          rw [abs_mul]
          exact le_mul_of_one_le_left (abs_nonneg _) hy1
        omega
      rw [hq, h0]
      simp only [Int.cast_zero, zero_div, add_zero]
      rw [hfl.exact m hm', Int.floor_intCast]
    · obtain ⟨g1, g2⟩ := hr1 h0
      have hx0 : x ≠ 0 := by
        rintro rfl
        exact h0 (by rw [hr]; simp)
      have hx2 : 1 ≤ |x| := Int.one_le_abs hx0
      have hqa : |(x : Rat) / y| = |(x : Rat)| / |(y : Rat)| := abs_div _ _
      have hxq : (1 : Rat) ≤ |(x : Rat)| := by
        have : ((1 : Int) : Rat) ≤ ((|x| : Int) : Rat) := Int.cast_le.2 hx2
        simpa using this
      have hxq' : |(x : Rat)| < 2 ^ 53 := by
        have : ((|x| : Int) : Rat) < ((2 ^ 53 : Int) : Rat) := Int.cast_lt.2 (by omega)
        rw [Int.cast_abs] at this
        exact this.trans_le (by norm_num)
      have hyq1 : (1 : Rat) ≤ |(y : Rat)| := by
        have : ((1 : Int) : Rat) ≤ ((|y| : Int) : Rat) := Int.cast_le.2 hy1
        simpa using this
      have hyq2 : |(y : Rat)| ≤ 2 ^ 53 := by
        have : ((|y| : Int) : Rat) ≤ ((2 ^ 53 : Int) : Rat) := Int.cast_le.2 (by omega)
        rw [Int.cast_abs] at this
        exact this.trans (by norm_num)
      have herr := hfl.error ((x : Rat) / y) (by
          rw [hqa, le_div_iff₀ hya]
          have : 1 / 2 ^ 64 * |(y : Rat)| ≤ 1 / 2 ^ 64 * 2 ^ 53 := by gcongr
          refine this.trans (le_trans ?_ hxq)
          norm_num) (by
          rw [hqa, div_le_iff₀ hya]
          have : (2 : Rat) ^ 64 * 1 ≤ 2 ^ 64 * |(y : Rat)| := by gcongr
          refine le_trans ?_ this
          exact hxq'.le.trans (by norm_num))
      have herr' : |(x : Rat) / y| / 2 ^ 53 < 1 / |(y : Rat)| := by
        rw [hqa, div_div, mul_comm |(y : Rat)|, ← div_div]
        refine (div_lt_div_iff_of_pos_right hya).2 ?_
        rw [div_lt_one (by norm_num)]
        exact hxq'
      obtain ⟨k1, k2⟩ := abs_lt.1 (lt_of_le_of_lt herr herr')
      rw [Int.floor_eq_iff]
      constructor <;> linarith
  have hwr : -2 ^ (w - 1) ≤ r ∧ r < 2 ^ (w - 1) := by
    have : (0 : Int) < 2 ^ (w - 1) := by positivity
    omega
  rw [MathTools.modulo, e1, e2, if_neg hyq, hfloor]
  have e3 : (y : Rat) * (m : Rat) = ((y * m : Int) : Rat) := by push_cast; rfl
  have e4 : (x : Rat) - ((y * m : Int) : Rat) = ((r : Int) : Rat) := by
    rw [hdiv]; push_cast; ring
  rw [e3, hfl.exact _ hym, e4, hfl.exact r (by omega), toInt]
  simp only [Int.floor_intCast, Int.ceil_intCast, ite_self]
  rw [if_pos hwr, hr]

/-- On `int`, `modulo` is always the remainder; it is what the model of the builder uses. -/
theorem C57_modulo_int {fl : Rat → Rat} (hfl : Rounds fl) (x y : BitVec 32) :
    MathTools.modulo fl 32 x.toInt y.toInt = DDC.modulo x.toInt y.toInt ∧
      (y ≠ 0 → DDC.modulo x.toInt y.toInt = .ok (Int.fmod x.toInt y.toInt)) := by
  have hfm : ∀ a b : Int, a - b * Int.fdiv a b = Int.fmod a b := fun a b => by
    have := Int.mul_fdiv_add_fmod a b
    omega
  have hy : y ≠ 0 → y.toInt ≠ 0 := fun h e => h (BitVec.eq_of_toInt_eq (by rw [e]; rfl))
  refine ⟨?_, fun h => by rw [DDC.modulo, if_neg (hy h), hfm]⟩
  by_cases h : y = 0
  · subst h
    have : fl 0 = 0 := by simpa using hfl.exact 0 (by norm_num)
    rw [MathTools.modulo, DDC.modulo, if_pos (by simpa using this), if_pos (by rfl)]
  · have hx1 := x.toInt_lt
    have hx2 := x.le_toInt
    have hy1 := y.toInt_lt
    have hy2 := y.le_toInt
    have ax : |x.toInt| ≤ 2 ^ 31 := abs_le.2 ⟨by omega, by omega⟩
    have ay : |y.toInt| ≤ 2 ^ 31 := abs_le.2 ⟨by omega, by omega⟩
    rw [C57_modulo_partial hfl 32 _ _ (hy h) (by omega) (by omega) (by omega), DDC.modulo, if_neg (hy h), hfm]

/-- On `ptrdiff_t`, a large argument is rounded before the division, and the result is wrong. -/
theorem C57_modulo_large : MathTools.modulo round53 64 (2 ^ 60 + 1) (2 ^ 60) = .ok 0 ∧
    Int.fmod (2 ^ 60 + 1) (2 ^ 60) = 1 := by
  decide +kernel

example : MathTools.modulo round53 32 (-7) 3 = .ok 2 :=
  C57_modulo_partial round53_rounds 32 (-7) 3 (by decide) (by decide) (by decide) (by decide)

/-! ## Minimum and maximum -/

/-- `min` and `max` are the minimum and the maximum of a total order. -/
theorem C57_min_max {α : Type} [LinearOrder α] (x y : α) :
    MathTools.min (fun a b => decide (a < b)) x y = x ⊓ y ∧ MathTools.max (fun a b => decide (a < b)) x y = x ⊔ y := by
  constructor
  · rw [MathTools.min]
    rcases lt_or_ge x y with h | h
    · rw [if_pos (by simpa using h), inf_eq_left.2 h.le]
    · rw [if_neg (by simpa using h), inf_eq_right.2 h]
  · rw [MathTools.max]
    rcases lt_or_ge y x with h | h
    · rw [if_pos (by simpa using h), sup_eq_left.2 h.le]
    · rw [if_neg (by simpa using h), sup_eq_right.2 h]

example : MathTools.min (fun a b => decide (a < b)) (3 : Rat) 2 = 2 ∧ MathTools.max (fun a b => decide (a < b)) (3 : Rat) 2 = 3 := by
  decide +kernel

end DDC.Props
