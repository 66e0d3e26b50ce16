import Verif.Props.C38
import Mathlib.Tactic.NormNum

/-!
# C54: the factory of linear problems returns storages that can hold the requested pattern

* `C54_band`, `C54_blocks`, `C54_periodic_partial`: the object returned is a zero matrix of the requested
  size, all positions of the pattern are stored, and two positions share one value only if the matrix was
  said to be symmetric;
* `C54_periodic_overflow`: the size test has undefined behaviour in all other cases;
* `C54_periodic_small`: sizes up to 35000 are never concerned.
-/

set_option linter.unusedSectionVars false

namespace DDC.Props

open LinProb

variable {K : Type} [Field K] [LinearOrder K]

theorem toNat_ofInt {n : Int} (h : 0 ≤ n) (h' : n < 2 ^ 64) : (BitVec.ofInt 64 n).toNat = n.toNat := by
  rw [BitVec.toNat_ofInt]; congr 1; exact Int.emod_eq_of_lt h h'

theorem intRes_ok {z : Int} (h : -2 ^ 31 ≤ z) (h' : z < 2 ^ 31) : intRes z = .ok z := if_pos ⟨h, h'⟩

/-- `make_new_band` returns a new matrix that can hold the band.  The values are shared with the other
side of the diagonal only if the matrix is said to be symmetric. -/
theorem C54_band (n kl ku : Int) (pds : Bool) (hn : 0 ≤ n) (hn' : n < 2 ^ 31) (hkl : 0 ≤ kl) (hku : 0 ≤ ku)
    (hb : 2 * kl + ku + 1 < 2 ^ 31) (hp : pds = true → kl = ku → kl ≠ 1 → kl < n) :
    ∃ p : LinProb K, makeBand n kl ku pds = .ok p ∧ Fresh p n.toNat ∧
      (∀ i j : Nat, (j : Int) ≤ i + ku → (i : Int) ≤ j + kl → p.Stored i j) ∧
      ∀ x y, p.Same x y → x = y ∨ (pds = true ∧ kl = ku ∧ x = y.swap) := by
  have en := toNat_ofInt hn (by omega)
  have ekl := toNat_ofInt hkl (by omega)
  have eku := toNat_ofInt hku (by omega)
  have F := C38_fresh (K := K) (BitVec.ofInt 64 n) (by rw [en]; omega)
  rw [en] at F
  obtain ⟨f1, f2, f3, f4, -, -⟩ := F
  rw [makeBand]
  split_ifs with c1 c2
  · refine ⟨_, rfl, f2, ?_, ?_⟩
    · intro i j h1 h2
      simp only [mkPdsTridiag, Stored]
      omega
    · rintro x y (h | h)
      · exact .inl h
      · exact .inr ⟨c1.2.2, c1.1, h⟩
  · have hlt : kl < n := hp c2.2 c2.1 fun h => c1 ⟨c2.1, h, c2.2⟩
    obtain ⟨p, e, f⟩ := f4 (BitVec.ofInt 64 kl) (by rw [ekl]; omega)
    refine ⟨p, e, f, ?_⟩
    have e1 : (BitVec.ofInt 64 kl + 1).toNat = kl.toNat + 1 := by
      rw [toNat_add_lt (by rw [toNat_one, ekl]; omega), toNat_one, ekl]
    rw [mkPdsBand, decide_eq_true (BitVec.le_def.2 (by rw [e1, en]; omega))] at e
    obtain rfl := Res.ok.inj e
    constructor
    · intro i j h1 h2
      simp only [Stored, e1]
      omega
    · rintro x y (h | h)
      · exact .inl h
      · exact .inr ⟨c2.2, c2.1, h⟩
  · rw [intRes_ok (by omega) (by omega), Res.ok_bind, intRes_ok (by omega) (by omega), Res.ok_bind,
      intRes_ok (by omega) (by omega), Res.ok_bind]
    split_ifs with c3
    · exact ⟨_, rfl, f1, fun _ _ _ _ => trivial, fun x y h => .inl h⟩
    · obtain ⟨p, e, f⟩ := f3 (BitVec.ofInt 64 kl) (BitVec.ofInt 64 ku) (by rw [ekl]; omega) (by rw [eku]; omega)
      refine ⟨p, e, f, ?_⟩
      rw [mkBand, decide_eq_true (BitVec.le_def.2 (by rw [ekl, en]; omega)),
        decide_eq_true (BitVec.le_def.2 (by rw [eku, en]; omega))] at e
      obtain rfl := Res.ok.inj e
      refine ⟨?_, fun x y h => .inl h⟩
      intro i j h1 h2
      simp only [Stored, ekl, eku]
      omega

/-- `make_new_block_matrix_with_band_main_block` returns a new matrix that can hold any value out of the
main block and in the band of the main block; only values of the main block are shared. -/
theorem C54_blocks (n kl ku bottom top : Int) (pds : Bool) (hn : n < 2 ^ 31) (hkl : 0 ≤ kl) (hku : 0 ≤ ku)
    (hbot : 0 ≤ bottom) (htop : 0 ≤ top) (hsum : top + bottom ≤ n) (hb : 2 * kl + ku + 1 < 2 ^ 31)
    (hp : pds = true → kl = ku → kl ≠ 1 → kl < n - top - bottom) :
    ∃ p : LinProb K, makeBlocks n kl ku pds bottom top = .ok p ∧ Fresh p n.toNat ∧
      (∀ i j : Nat, ((i : Int) < top ∨ n - bottom ≤ i ∨ (j : Int) < top ∨ n - bottom ≤ j ∨
        ((j : Int) ≤ i + ku ∧ (i : Int) ≤ j + kl)) → p.Stored i j) ∧
      ∀ x y, p.Same x y → x = y ∨ (pds = true ∧ kl = ku ∧ x = y.swap ∧ top ≤ x.1 ∧ (x.1 : Int) < n - bottom ∧
        top ≤ x.2 ∧ (x.2 : Int) < n - bottom) := by
  have en := toNat_ofInt (n := n) (by omega) (by omega)
  have et := toNat_ofInt (n := top) (by omega) (by omega)
  obtain ⟨q, eq, fq, sq, mq⟩ := C54_band (K := K) (n - top - bottom) kl ku pds (by omega) (by omega) hkl hku hb hp
  have F := C38_fresh (K := K) (BitVec.ofInt 64 n) (by rw [en]; omega)
  rw [en] at F
  obtain ⟨-, -, -, -, f5, f6⟩ := F
  rw [makeBlocks, intRes_ok (by omega) (by omega), Res.ok_bind, intRes_ok (by omega) (by omega), Res.ok_bind, eq,
    Res.ok_bind]
  have hq := fq.size
  split_ifs with c
  · obtain ⟨p, e, f⟩ := f5 _ q fq (by omega)
    refine ⟨p, e, f, ?_⟩
    rw [mkBlocks2, decide_eq_true (BitVec.le_def.2 (by omega))] at e
    obtain rfl := Res.ok.inj e
    constructor
    · intro i j h a b
      exact sq i j (by omega) (by omega)
    · rintro x y (h | ⟨h1, h2, -, -, h⟩)
      · exact .inl h
      · exact (mq x y h).imp_right fun ⟨g1, g2, h⟩ => ⟨g1, g2, h, by omega, by omega, by omega, by omega⟩
  · obtain ⟨p, e, f⟩ := f6 _ q (BitVec.ofInt 64 top) fq (by rw [et]; omega)
    refine ⟨p, e, f, ?_⟩
    rw [mkBlocks3, decide_eq_true (BitVec.le_def.2 (by omega))] at e
    obtain rfl := Res.ok.inj e
    constructor
    · intro i j h a b a' b'
      rw [et, hq] at b b'
      rw [et] at a a' ⊢
      exact sq _ _ (by omega) (by omega)
    · rintro x y (h | ⟨h1, h1', h2, h2', h3, -, h4, -, h⟩)
      · exact .inl h
      · rcases mq _ _ h with h | ⟨g1, g2, h⟩
        · left
          obtain ⟨a, b⟩ := Prod.mk.inj h
          exact Prod.ext (by omega) (by omega)
        · right
          obtain ⟨a, b⟩ := Prod.mk.inj h
          exact ⟨g1, g2, Prod.ext (by rw [Prod.fst_swap]; omega) (by rw [Prod.snd_swap]; omega), by omega, by omega,
            by omega, by omega⟩

/-- The two sides of the size test of `make_new_periodic_band_matrix`, `b` being `max(kl, ku)`: the
numbers of values of the two storages. -/
def blockValues (n kl ku : Int) : Int :=
  max kl ku * (n + (n - max kl ku)) + (2 * kl + ku + 1) * (n - max kl ku)

/-- `make_new_periodic_band_matrix` returns a new matrix that can hold the band that wraps around,
if the numbers of values of both candidates fit in an `int`.  Missing: the other sizes, for which
the test has undefined behaviour (`C54_periodic_overflow`). -/
theorem C54_periodic_partial (n kl ku : Int) (pds : Bool) (hkl : 0 ≤ kl) (hku : 0 ≤ ku)
    (hl : kl < n) (hu : ku < n) (hfit : blockValues n kl ku < 2 ^ 31) (s4 : n * n < 2 ^ 31) :
    ∃ p : LinProb K, makePeriodic n kl ku pds = .ok p ∧ Fresh p n.toNat ∧
      (∀ i j : Nat, (i : Int) < n → (j : Int) < n → (((j : Int) ≤ i + ku ∧ (i : Int) ≤ j + kl) ∨
        (i : Int) + n ≤ j + kl ∨ (j : Int) + n ≤ i + ku) → p.Stored i j) ∧
      ∀ x y, p.Same x y → x = y ∨ (pds = true ∧ kl = ku ∧ x = y.swap) := by
  have hn : n < 46341 := by nlinarith
  have en := toNat_ofInt (n := n) (by omega) (by omega)
  rw [makePeriodic, decide_eq_true hl, decide_eq_true hu]
  simp only [Res.guardAbort_true, Res.ok_bind]
  obtain ⟨b, hb, hbk⟩ : ∃ b, (if kl < ku then ku else kl) = b ∧ kl ≤ b ∧ ku ≤ b ∧ (b = kl ∨ b = ku) := by
    refine ⟨_, rfl, ?_, ?_, ?_⟩ <;> split_ifs <;> omega
  rw [hb, intRes_ok (by omega) (by omega), Res.ok_bind]
  have hb0 : 0 ≤ b := by omega
  have hbn : b < n := by omega
  have s1 : b * (n + (n - b)) ≤ n * n := by nlinarith [sq_nonneg (n - b)]
  have s1' : 0 ≤ b * (n + (n - b)) := by apply mul_nonneg <;> omega
  have s2' : 0 ≤ (2 * kl + ku + 1) * (n - b) := by apply mul_nonneg <;> omega
  have s3 : b * (n + (n - b)) + (2 * kl + ku + 1) * (n - b) < 2 ^ 31 := by
    have hm : max kl ku = b := by omega
    rw [blockValues, hm] at hfit
    exact hfit
  have s4' : 0 ≤ n * n := mul_self_nonneg n
  rw [periodicUsesDense, intRes_ok (by omega) (by omega), Res.ok_bind, intRes_ok (by omega) (by omega), Res.ok_bind,
    intRes_ok (by omega) (by omega), Res.ok_bind, intRes_ok (by omega) (by omega), Res.ok_bind,
    intRes_ok (by omega) (by omega), Res.ok_bind, intRes_ok (by omega) (by omega), Res.ok_bind,
    intRes_ok (by omega) (by omega), Res.ok_bind, intRes_ok (by omega) (by omega), Res.ok_bind, Res.ok_bind]
  simp only [decide_eq_true_eq]
  split_ifs with c
  · have F := C38_fresh (K := K) (BitVec.ofInt 64 n) (by rw [en]; omega)
    rw [en] at F
    exact ⟨_, rfl, F.1, fun _ _ _ _ _ => trivial, fun x y h => .inl h⟩
  · obtain ⟨p, e, f, st, sm⟩ := C54_blocks (K := K) n kl ku b 0 pds (by omega) hkl hku hb0 le_rfl (by omega)
      (by omega) (fun _ hk _ => by
        have hkb : kl = b := by omega
        subst hk
        subst hkb
        by_contra hc
        have : n - kl ≤ kl := by omega
        have : 0 ≤ (n - kl) * (4 * kl + 1 - n) := by apply mul_nonneg <;> omega
        nlinarith)
    refine ⟨p, e, f, ?_, fun x y h => (sm x y h).imp_right fun g => ⟨g.1, g.2.1, g.2.2.1⟩⟩
    intro i j hi hj h
    exact st i j (by omega)

/-- Both numbers fit for all sizes up to 35000. -/
theorem C54_periodic_small (n kl ku : Int) (hn : n ≤ 35000) (hkl : 0 ≤ kl) (hku : 0 ≤ ku)
    (hl : kl < n) (hu : ku < n) : blockValues n kl ku < 2 ^ 31 ∧ n * n < 2 ^ 31 := by
  obtain ⟨b, hb, h1, h2, hor⟩ : ∃ b, max kl ku = b ∧ kl ≤ b ∧ ku ≤ b ∧ (b = kl ∨ b = ku) :=
    ⟨_, rfl, by omega, by omega, by omega⟩
  have s2 : (2 * kl + ku + 1) * (n - b) ≤ (3 * b + 1) * (n - b) := by
    apply mul_le_mul_of_nonneg_right <;> omega
  have hb0 : 0 ≤ b := by omega
  have hbn : b < n := by omega
  rw [blockValues, hb]
  have s3 : b * (n + (n - b)) + (3 * b + 1) * (n - b) < 2 ^ 31 := by
    have hnn : n * n ≤ 35000 * 35000 := by nlinarith
    nlinarith [sq_nonneg (5 * n - 8 * b)]
  exact ⟨by omega, by nlinarith⟩

/-- If one of the two numbers does not fit in an `int`, the size test has undefined behaviour;
this is so for all sizes from 46341 on. -/
theorem C54_periodic_overflow (n kl ku : Int) (pds : Bool) (hn' : n < 2 ^ 31) (hkl : 0 ≤ kl)
    (hku : 0 ≤ ku) (hl : kl < n) (hu : ku < n)
    (hbig : 2 ^ 31 ≤ blockValues n kl ku ∨ 2 ^ 31 ≤ n * n) :
    (makePeriodic n kl ku pds : Res (LinProb K)) = .ub := by
  have hi : ∀ z, intRes z = .ok z ∨ intRes z = .ub := fun z => by rw [intRes]; split_ifs <;> simp
  have hall : periodicUsesDense n kl ku (max kl ku) (n - max kl ku) = .ub := by
    rw [periodicUsesDense]
    generalize ht : n - max kl ku = t
    generalize hb : max kl ku = b
    have hbig' : 2 ^ 31 ≤ b * (n + t) + (2 * kl + ku + 1) * t ∨ 2 ^ 31 ≤ n * n := by
      rw [blockValues, ht, hb] at hbig
      exact hbig
    rcases hi (n + t) with e | e <;> rw [e]
    rcases hi (b * (n + t)) with e | e <;> simp only [Res.ok_bind, e]
    rcases hi (2 * kl) with e | e <;> simp only [Res.ok_bind, e]
    rcases hi (2 * kl + ku) with e | e <;> simp only [Res.ok_bind, e]
    rcases hi (2 * kl + ku + 1) with e | e <;> simp only [Res.ok_bind, e]
    rcases hi ((2 * kl + ku + 1) * t) with e | e <;> simp only [Res.ok_bind, e]
    rcases hbig' with hbig' | hbig'
    · have hov : intRes (b * (n + t) + (2 * kl + ku + 1) * t) = .ub :=
        if_neg (by rintro ⟨-, h⟩; omega)
      rw [hov]; rfl
    · have hov : intRes (n * n) = .ub := if_neg (by rintro ⟨-, h⟩; omega)
      rcases hi (b * (n + t) + (2 * kl + ku + 1) * t) with e | e <;> simp only [Res.ok_bind, e, hov] <;> rfl
    all_goals rfl
  rw [makePeriodic, decide_eq_true hl, decide_eq_true hu]
  simp only [Res.guardAbort_true, Res.ok_bind]
  have hm : (if kl < ku then ku else kl) = max kl ku := by split_ifs <;> omega
  rw [hm, intRes_ok (by omega) (by omega), Res.ok_bind, hall]
  rfl

/-! ## Concrete cases -/

example : (do
    let p ← (makePeriodic 12 1 2 false : Res (LinProb Rat))
    let p ← p.set 0 11 1
    let p ← p.set 11 1 2
    return [← p.get 0 11, ← p.get 11 1, ← p.get 1 11]) = .ok [1, 2, 0] := by decide +kernel

example : (makePeriodic 46341 1 1 true : Res (LinProb Rat)) = .ub :=
  C54_periodic_overflow 46341 1 1 true (by norm_num) (by norm_num) (by norm_num) (by norm_num) (by norm_num)
    (Or.inr (by norm_num))

/-- The larger of the two numbers can be the one of the blocks: half the size as bandwidth. -/
example : 40000 * 40000 < (2 ^ 31 : Int) ∧ (makePeriodic 40000 20000 20000 true : Res (LinProb Rat)) = .ub :=
  ⟨by norm_num, C54_periodic_overflow 40000 20000 20000 true (by norm_num) (by norm_num) (by norm_num) (by norm_num)
    (by norm_num) (Or.inl (by norm_num [blockValues]))⟩

example : blockValues 46340 3 3 < 2 ^ 31 ∧ 46340 * 46340 < (2 ^ 31 : Int) := by norm_num [blockValues]

end DDC.Props
