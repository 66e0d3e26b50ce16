import Verif.Lemmas.Triangle
import Verif.Props.C27
import Mathlib.Algebra.Order.Floor.Ring

/-!
# Uniform B-splines: the object, its accessors and its cell search
-/

namespace DDC

set_option linter.unusedSectionVars false

open One Props

variable {K : Type} [Field K] [LinearOrder K] [IsStrictOrderedRing K]

theorem el1_eq (i : Nat) : el1 (BitVec.ofNat 64 i) = el () i := rfl
theorem ve1_eq (i : Nat) : ve1 (BitVec.ofNat 64 i) = vec () i := rfl

/-- The uniform B-splines of degree `p` with `n` cells on `[a, b]`. -/
def ubs (p : Nat) (per : Bool) (a b : K) (n : Nat) : UBS K :=
  ⟨p, per, ⟨a - (p : K) * ((b - a) / (n : K)), (b - a) / (n : K), el () 0⟩, seg () 0 (n + 1 + p + p),
    seg () p (p + (n + 1)), el () 0⟩

theorem UBS.mk'_ok {p : Nat} (hp : 0 < p) (per : Bool) {a b : K} (hab : a < b) {n : Nat} (hn : 0 < n)
    (hs : n + 1 + 2 * p < 2 ^ 63) : UBS.mk' p per a b (BitVec.ofNat 64 n) = .ok (ubs p per a b n) := by
  have h1 : decide (0 < p) = true := by simpa using hp
  have h2 : decide ((0 : U64) < BitVec.ofNat 64 n) = true := by
    simp only [decide_eq_true_eq]
    rw [BitVec.lt_def, BitVec.toNat_ofNat]
    have : (0 : U64).toNat = 0 := rfl
    omega
  have h3 : (BitVec.ofNat 64 n + 1 : U64) = BitVec.ofNat 64 (n + 1) := by
    rw [BitVec.ofNat_add]; rfl
  have h4 : decide (1 < ((n + 1 : Nat) : Int)) = true := by simp; omega
  have hpos := step_pos hab (show 1 < n + 1 by omega)
  simp only [Nat.add_sub_cancel] at hpos
  obtain ⟨g1, g2, g3, g4, g5, g6⟩ := ghost_domains () p (n + 1) p (by omega)
  have href : (Elem.createReference () : Elem Unit) = el () 0 := rfl
  have hm : Uniform.mk' () (a - (p : K) * ((b - a) / (n : K))) ((b - a) / (n : K)) =
      .ok ⟨a - (p : K) * ((b - a) / (n : K)), (b - a) / (n : K), el () 0⟩ := by
    simp [Uniform.mk', hpos, href]
  have key : Uniform.initGhosted () a b (vec () (n + 1)) (vec () p) (vec () p) =
      .ok (⟨a - (p : K) * ((b - a) / (n : K)), (b - a) / (n : K), el () 0⟩, seg () p (p + (n + 1)),
        seg () 0 (n + 1 + p + p), seg () 0 p, seg () (p + (n + 1)) (n + 1 + p + p)) := by
    simp only [Uniform.initGhosted, hab, decide_true, Res.guardAbort_true, Res.ok_bind]
    rw [show Vect.value (vec () (n + 1)) = .ok (BitVec.ofNat 64 (n + 1)) from rfl, Res.ok_bind,
      toInt_ofNat (by omega), h4, Res.guardAbort_true, Res.ok_bind,
      show Vect.subInt (vec () (n + 1)) 1 = .ok (vec () n) from subInt_nat () (by omega) (by omega),
      Res.ok_bind, show Vect.value (vec () n) = .ok (BitVec.ofNat 64 n) from rfl, Res.ok_bind,
      toInt_ofNat (by omega), show Vect.value (vec () p) = .ok (BitVec.ofNat 64 p) from rfl, Res.ok_bind,
      toInt_ofNat (by omega), Int.cast_natCast, Int.cast_natCast, hm, Res.ok_bind, g1, Res.ok_bind, g2,
      Res.ok_bind, g3, Res.ok_bind, g4, Res.ok_bind, g5, Res.ok_bind, g6]
    rfl
  simp only [UBS.mk', h1, h2, Res.guardIll_true, Res.guardAbort_true, Res.ok_bind, h3, ve1_eq, key, href]
  rfl

section

variable {p : Nat} {per : Bool} {a b : K} {n : Nat}

theorem ubs_of_mk (hp : 0 < p) (hab : a < b) (hn : 0 < n) (hs : n + 1 + 2 * p < 2 ^ 63) {u : UBS K}
    (hu : UBS.mk' p per a b (BitVec.ofNat 64 n) = .ok u) : ubs p per a b n = u := by
  rw [UBS.mk'_ok hp per hab hn hs] at hu
  exact Res.ok.inj hu

theorem ubs_coordinate {k : Nat} (hk : k < 2 ^ 63) :
    (ubs p per a b n).knots.coordinate (el () k) = .ok (Spec.uniformKnot a b n p k) := by
  have := coordinate_ok () (a - (p : K) * ((b - a) / (n : K))) ((b - a) / (n : K)) hk
  rw [show (ubs p per a b n).knots = ⟨a - (p : K) * ((b - a) / (n : K)), (b - a) / (n : K),
    Elem.createReference ()⟩ from rfl, this, Spec.uniformKnot]
  congr 1
  ring

theorem uniformKnot_first : Spec.uniformKnot a b n p p = a := by simp [Spec.uniformKnot]

theorem uniformKnot_last (hn : 0 < n) : Spec.uniformKnot a b n p (p + n) = b := by
  have : (n : K) ≠ 0 := by exact_mod_cast hn.ne'
  rw [Spec.uniformKnot]
  push_cast
  field_simp
  ring

theorem uniformKnot_step (k j : Nat) :
    Spec.uniformKnot a b n p (k + j) = Spec.uniformKnot a b n p k + (j : K) * ((b - a) / (n : K)) := by
  rw [Spec.uniformKnot, Spec.uniformKnot]; push_cast; ring

theorem uniformKnot_strictMono (hab : a < b) (hn : 0 < n) : StrictMono (Spec.uniformKnot a b n p) := by
  intro i j hij
  obtain ⟨d, rfl⟩ : ∃ d, j = i + d := ⟨j - i, by omega⟩
  have h1 := step_pos hab (show 1 < n + 1 by omega)
  simp only [Nat.add_sub_cancel] at h1
  have h2 : (0 : K) < (d : K) := by exact_mod_cast (by omega : 0 < d)
  rw [uniformKnot_step]
  have := mul_pos h2 h1
  linarith

theorem ubs_rmin (hs : n + 1 + 2 * p < 2 ^ 63) : (ubs p per a b n).rmin = .ok a := by
  rw [UBS.rmin, show (ubs p per a b n).breakDom = seg () p (p + (n + 1)) from rfl, One.front,
    ubs_coordinate (by omega), uniformKnot_first]

theorem ubs_rmax (hn : 0 < n) (hs : n + 1 + 2 * p < 2 ^ 63) : (ubs p per a b n).rmax = .ok b := by
  rw [UBS.rmax, show (ubs p per a b n).breakDom = seg () p (p + (n + 1)) from rfl,
    back_nat () (by omega), Res.ok_bind, show p + (n + 1) - 1 = p + n from rfl, ubs_coordinate (by omega),
    uniformKnot_last hn]

theorem seg_size {x y : Nat} (h : x ≤ y) : Dom.size (seg () x y) = .ok (BitVec.ofNat 64 (y - x)) := by
  simp [Dom.size, Dom.sizeAux, Dom.extent, seg, Dom.fin, Dom.beg, Tup.select, Tup.ofTuples, One.take,
    One.sub, ofNat_sub h]

theorem ubs_ncells : (ubs p per a b n).ncells = .ok (BitVec.ofNat 64 n) := by
  rw [UBS.ncells, show (ubs p per a b n).breakDom = seg () p (p + (n + 1)) from rfl,
    seg_size (by omega), Res.ok_bind, show (1 : U64) = BitVec.ofNat 64 1 from rfl, ofNat_sub (by omega)]
  simp

theorem sizeToInt_ofNat {k : Nat} (h : k < 2 ^ 31) : UBS.sizeToInt (BitVec.ofNat 64 k) = k := by
  have e : (BitVec.ofNat 64 k).toNat = k := by rw [BitVec.toNat_ofNat]; omega
  rw [UBS.sizeToInt, toInt32_small (by rw [e]; exact h), e]

theorem checkInside_ok (hab : a < b) {x : K} (hx : a ≤ x ∧ x ≤ b) : UBS.checkInside x a b = .ok () := by
  have ht : (0 : K) ≤ tol := by rw [tol]; positivity
  have h0 : -(b - a) * tol ≤ 0 := by
    have := mul_nonneg (sub_nonneg.2 hab.le) ht
    linarith
  have h1 : decide (-(b - a) * tol ≤ x - a) = true := by simp only [decide_eq_true_eq]; linarith [hx.1]
  have h2 : decide (-(b - a) * tol ≤ b - x) = true := by simp only [decide_eq_true_eq]; linarith [hx.2]
  simp only [UBS.checkInside, h1, h2, Res.guardAbort_true, Res.ok_bind]

/-- The cell search. -/
theorem ubs_cell [FloorRing K] (hab : a < b) (hn : 0 < n) (hn' : n < 2 ^ 31)
    (hs : n + 1 + 2 * p < 2 ^ 63) {x : K} (hx : a ≤ x ∧ x ≤ b) :
    ∃ (ic : Nat) (o : K), (ubs p per a b n).getIcellAndOffset x = .ok ((ic : Int), o) ∧ ic < n ∧
      0 ≤ o ∧ o ≤ 1 ∧ (o = 1 ↔ x = b) ∧
      x = Spec.uniformKnot a b n p (p + ic) + o * ((b - a) / (n : K)) ∧
      Spec.InCell (Spec.uniformKnot a b n p) b x (p + ic) := by
  have hh := step_pos hab (show 1 < n + 1 by omega)
  simp only [Nat.add_sub_cancel] at hh
  set h := (b - a) / (n : K) with hdef
  have hn0 : (n : K) ≠ 0 := by exact_mod_cast hn.ne'
  have hnh : (n : K) * h = b - a := by rw [hdef]; field_simp
  have hk : ∀ k : Nat, Spec.uniformKnot a b n p (p + k) = a + (k : K) * h := by
    intro k; rw [uniformKnot_step, uniformKnot_first]
  simp only [UBS.getIcellAndOffset, ubs_rmin hs, ubs_rmax hn hs, Res.ok_bind, checkInside_ok hab hx,
    ubs_ncells]
  by_cases h1 : x ≤ a
  · obtain rfl : x = a := le_antisymm h1 hx.1
    refine ⟨0, 0, by simp, hn, le_refl _, zero_le_one, ⟨fun e => absurd e zero_ne_one,
      fun e => absurd e hab.ne⟩, ?_, ?_⟩
    · rw [hk]; simp
    · rw [Spec.InCell, if_pos hab, add_assoc, hk, hk]
      simp only [Nat.cast_zero, zero_mul, add_zero, le_refl, true_and, Nat.zero_add, Nat.cast_one,
        one_mul]
      linarith
  · rw [if_neg h1]
    by_cases h2 : b ≤ x
    · obtain rfl : x = b := le_antisymm hx.2 h2
      have e1 : (BitVec.ofNat 64 n - 1 : U64) = BitVec.ofNat 64 (n - 1) := by
        rw [show (1 : U64) = BitVec.ofNat 64 1 from rfl, ofNat_sub (by omega)]
      have hn1 : ((n - 1 : Nat) : K) = (n : K) - 1 := by rw [Nat.cast_sub (by omega)]; simp
      refine ⟨n - 1, 1, ?_, by omega, zero_le_one, le_refl _, by simp, ?_, ?_⟩
      · simp only [le_refl, if_true]
        rw [e1, sizeToInt_ofNat (by omega)]
        rfl
      · rw [hk, hn1]; linarith
      · rw [Spec.InCell, if_neg (lt_irrefl _), add_assoc, Nat.sub_add_cancel (by omega), hk, hk, hn1]
        constructor <;> linarith
    · rw [if_neg h2]
      have hlo : 0 < (x - a) * (1 / h) := mul_pos (by linarith [not_le.1 h1]) (by positivity)
      have hhi : (x - a) * (1 / h) < n := by
        rw [mul_one_div, div_lt_iff₀ hh, hnh]
        linarith [not_le.1 h2]
      have hf0 : 0 ≤ ⌊(x - a) * (1 / h)⌋ := Int.floor_nonneg.2 hlo.le
      have hf1 : ⌊(x - a) * (1 / h)⌋ < (n : Int) := by
        rw [Int.floor_lt]; exact_mod_cast hhi
      have htr : UBS.truncInt ((x - a) * (1 / h)) = .ok ⌊(x - a) * (1 / h)⌋ := by
        rw [UBS.truncInt, if_pos hlo.le, if_pos ⟨by omega, by omega⟩]
      have hinv : (ubs p per a b n).invStep = 1 / h := rfl
      simp only [hinv, htr, Res.ok_bind, sizeToInt_ofNat hn', Res.pure_eq]
      rw [if_neg (fun e => absurd e.1 (by omega))]
      obtain ⟨ic, hic⟩ := Int.eq_ofNat_of_zero_le hf0
      have hfl := Int.floor_le ((x - a) * (1 / h))
      have hfu := Int.lt_floor_add_one ((x - a) * (1 / h))
      rw [hic] at hf1 hfl hfu ⊢
      simp only [Int.cast_natCast] at hfl hfu ⊢
      have hxo : x = Spec.uniformKnot a b n p (p + ic) + ((x - a) * (1 / h) - (ic : K)) * h := by
        rw [hk]
        field_simp
        ring
      refine ⟨ic, _, rfl, by omega, by linarith, by linarith, ⟨fun e => by linarith,
        fun e => absurd e (fun e => h2 e.ge)⟩, hxo, ?_⟩
      rw [Spec.InCell, if_pos (not_le.1 h2), uniformKnot_step _ 1]
      have e1 : 0 ≤ ((x - a) * (1 / h) - (ic : K)) * h := mul_nonneg (by linarith) hh.le
      have e2 : ((x - a) * (1 / h) - (ic : K)) * h < 1 * h :=
        mul_lt_mul_of_pos_right (by linarith) hh
      constructor
      · linarith
      · simp only [Nat.cast_one]; linarith

/-- The coefficients of the loops are those of the Cox–de Boor recursion. -/
theorem ubs_coeffs (hab : a < b) (hn : 0 < n) {ic : Nat} {o x : K}
    (hx : x = Spec.uniformKnot a b n p (p + ic) + o * ((b - a) / (n : K))) (j r : Nat) (hj : j ≤ p) :
    let t := Spec.uniformKnot a b n p
    let c := p + ic
    uL o j r = (x - t (c - j + r)) / (t (c + r + 1) - t (c - j + r)) ∧
    uR o j r = (t (c + r + 1) - x) / (t (c + r + 1) - t (c - j + r)) := by
  have hh := step_pos hab (show 1 < n + 1 by omega)
  simp only [Nat.add_sub_cancel] at hh
  intro t c
  have hj0 : ((j : K) + 1) ≠ 0 := by positivity
  have e0 : t (c - j + j) = t (c - j) + (j : K) * ((b - a) / (n : K)) := uniformKnot_step _ _
  have e0 : t c = t (c - j) + (j : K) * ((b - a) / (n : K)) := by
    rw [← e0]; congr 1; omega
  have e1 : t (c - j + r) = t c - (j : K) * ((b - a) / (n : K)) + (r : K) * ((b - a) / (n : K)) := by
    have : t (c - j + r) = t (c - j) + (r : K) * ((b - a) / (n : K)) := uniformKnot_step _ _
    rw [this, e0]; ring
  have e2 : t (c + r + 1) = t c + ((r + 1 : Nat) : K) * ((b - a) / (n : K)) := uniformKnot_step c (r + 1)
  have e3 : x = t c + o * ((b - a) / (n : K)) := hx
  rw [e1, e2, e3]
  set h := (b - a) / (n : K)
  have hden : t c + ((r + 1 : Nat) : K) * h - (t c - (j : K) * h + (r : K) * h) = ((j : K) + 1) * h := by
    push_cast; ring
  rw [hden, uL, uR]
  have := hh.ne'
  push_cast
  constructor <;> field_simp <;> ring

theorem addInt_nat {i : Nat} : Elem.addInt (el () 0) (BitVec.ofInt 64 (i : Int)) = .ok (el () i) := by
  simp [Elem.addInt, el]

/-- The values computed by `eval_basis`. -/
theorem ubs_evalBasisDeg [FloorRing K] (hab : a < b) (hn : 0 < n) (hn' : n < 2 ^ 31)
    (hs : n + 1 + 2 * p < 2 ^ 63) {x : K} (hx : a ≤ x ∧ x ≤ b) {q : Nat} {values : Arr K}
    (hv : values.size = q + 1) :
    ∃ (ic : Nat) (o : K) (v : Arr K), (ubs p per a b n).getIcellAndOffset x = .ok ((ic : Int), o) ∧
      (ubs p per a b n).evalBasisDeg values x q = .ok (v, el () ic) ∧
      ic < n ∧ x = Spec.uniformKnot a b n p (p + ic) + o * ((b - a) / (n : K)) ∧
      Spec.InCell (Spec.uniformKnot a b n p) b x (p + ic) ∧
      Line v (q + 1) (tri (uL o) (uR o) 1 q) q := by
  obtain ⟨ic, o, h1, h2, _, _, _, h3, h4⟩ := ubs_cell (per := per) hab hn hn' hs hx
  obtain ⟨v, e, hl⟩ := UBS.triangle_ok o 1 q (values.set 0 1) (q + 1) (by omega) (by simpa using hv)
    (by rw [Arr.set_val, if_pos rfl])
  refine ⟨ic, o, v, h1, ?_, h2, h3, h4, hl⟩
  have hd : decide (values.size = q + 1) = true := by simpa using hv
  have hsz : (values.set 0 1).size - 1 = q := by rw [Arr.set_size, hv]; rfl
  simp only [UBS.evalBasisDeg, hd, Res.guardAbort_true, Res.ok_bind, h1,
    Arr.wr_ok (show 0 < values.size by omega), hsz, e]
  rw [show (ubs p per a b n).ref = el () 0 from rfl, addInt_nat]
  rfl

end

end DDC
