import Verif.Lemmas.RoundedBlocks
import Verif.Model.RoundedLinear

/-!
# Products with matrices in coordinate format and the Schur complement, with rounding
-/

namespace DDC

open Finset

/-! ## Products with matrices in coordinate format -/

/-- The entry `i` of the right-hand side through the loop over the non-zeros. -/
def rowFold (fl : Rat → Rat) (tr : Bool) (l : List (Nat × Nat × Rat)) (i : Nat) (x : Nat → Rat) (y : Rat) : Rat :=
  l.foldl (fun y e => if (if tr then e.2.1 else e.1) = i then fl (y - fl (e.2.2 * x (if tr then e.1 else e.2.1))) else y) y

/-- Row `i` of the product of the absolute values. -/
def cooAbs (tr : Bool) (l : List (Nat × Nat × Rat)) (i : Nat) (x : Nat → Rat) : Rat :=
  (l.map fun e => if (if tr then e.2.1 else e.1) = i then |e.2.2| * |x (if tr then e.1 else e.2.1)| else 0).sum

/-- The number of non-zeros of row `i`. -/
def cooCount (tr : Bool) (l : List (Nat × Nat × Rat)) (i : Nat) : Rat :=
  (l.map fun e => if (if tr then e.2.1 else e.1) = i then (1 : Rat) else 0).sum

theorem cooCount_nonneg (tr : Bool) (l : List (Nat × Nat × Rat)) (i : Nat) : 0 ≤ cooCount tr l i := by
  refine List.sum_nonneg fun x hx => ?_
  obtain ⟨e, -, rfl⟩ := List.mem_map.1 hx
  split_ifs <;> norm_num

theorem cooAbs_nonneg (tr : Bool) (l : List (Nat × Nat × Rat)) (i : Nat) (x : Nat → Rat) : 0 ≤ cooAbs tr l i x := by
  refine List.sum_nonneg fun x hx => ?_
  obtain ⟨e, -, rfl⟩ := List.mem_map.1 hx
  split_ifs <;> first | exact le_rfl | positivity

theorem cooRow_le (tr : Bool) (l : List (Nat × Nat × Rat)) (i : Nat) (x : Nat → Rat) :
    |cooRow tr l i x| ≤ cooAbs tr l i x := by
  induction l with
  | nil => simp [cooRow, cooAbs]
  | cons e l ih =>
    rw [cooRow_cons]
    have e2 : cooAbs tr (e :: l) i x = (if (if tr then e.2.1 else e.1) = i then
        |e.2.2| * |x (if tr then e.1 else e.2.1)| else 0) + cooAbs tr l i x := by simp [cooAbs]
    rw [e2]
    refine (abs_add_le _ _).trans (add_le_add ?_ ih)
    by_cases h : (if tr then e.2.1 else e.1) = i
    · rw [if_pos h, if_pos h, abs_mul]
    · rw [if_neg h, if_neg h, abs_zero]

/-- The error relative to the rounded result. -/
theorem fl_back {fl : Rat → Rat} (hfl : Spec.RoundsAll fl) (q : Rat) : |fl q - q| ≤ 33 / 32 / 2 ^ 53 * |fl q| := by
  have h1 := hfl.error q
  have h2 := abs_sub_abs_le_abs_sub q (fl q)
  rw [abs_sub_comm] at h2
  have h3 := abs_nonneg (fl q)
  norm_num at h1 ⊢
  linarith

/-- Backward error of the loop over the non-zeros. -/
theorem rowFold_near {fl : Rat → Rat} (hfl : Spec.RoundsAll fl) (tr : Bool) (l : List (Nat × Nat × Rat)) (i : Nat)
    (x : Nat → Rat) (y : Rat) (hc : cooCount tr l i ≤ 2 ^ 40) :
    |rowFold fl tr l i x y - (y - cooRow tr l i x)| ≤
      17 / 16 * cooCount tr l i / 2 ^ 53 * (|rowFold fl tr l i x y| + cooAbs tr l i x) := by
  induction l generalizing y with
  | nil => simp [rowFold, cooRow, cooAbs, cooCount]
  | cons e l ih =>
    have e2 : cooAbs tr (e :: l) i x = (if (if tr then e.2.1 else e.1) = i then
        |e.2.2| * |x (if tr then e.1 else e.2.1)| else 0) + cooAbs tr l i x := by simp [cooAbs]
    have e3 : cooCount tr (e :: l) i = (if (if tr then e.2.1 else e.1) = i then 1 else 0) + cooCount tr l i := by
      simp [cooCount]
    rw [e3] at hc
    rw [cooRow_cons, e2, e3]
    by_cases h : (if tr then e.2.1 else e.1) = i
    · simp only [h, if_true] at hc ⊢
      obtain ⟨v, hv⟩ : ∃ v, v = e.2.2 * x (if tr then e.1 else e.2.1) := ⟨_, rfl⟩
      have e4 : rowFold fl tr (e :: l) i x y = rowFold fl tr l i x (fl (y - fl v)) := by
        rw [rowFold, List.foldl_cons, if_pos h, ← hv]; rfl
      rw [e4, ← abs_mul, ← hv]
      have h1 := ih (fl (y - fl v)) (by linarith)
      have h2 := fl_back hfl (y - fl v)
      have h3 := hfl.error v
      have h4 := cooRow_le tr l i x
      have h5 := cooAbs_nonneg tr l i x
      have h6 := cooCount_nonneg tr l i
      generalize rowFold fl tr l i x (fl (y - fl v)) = Y at *
      generalize fl (y - fl v) = y1 at *
      generalize cooRow tr l i x = R at *
      generalize cooAbs tr l i x = A at *
      generalize cooCount tr l i = c at *
      generalize fl v = w at *
      -- the intermediate value
      obtain ⟨G, hG⟩ : ∃ G, G = 17 / 16 * c / 2 ^ 53 := ⟨_, rfl⟩
      have G1 : G ≤ 1 / 100 := by rw [hG]; norm_num at hc ⊢; linarith
      have G0 : 0 ≤ G := by rw [hG]; positivity
      have e5 : 17 / 16 * (1 + c) / 2 ^ 53 = G + 17 / 16 / 2 ^ 53 := by rw [hG]; ring
      rw [e5]
      rw [← hG] at h1
      have hY := abs_nonneg Y
      have k1 : |y1| ≤ 101 / 100 * (|Y| + A) := by
        have a1 := abs_sub_abs_le_abs_sub y1 R
        have a2 := abs_sub_abs_le_abs_sub (y1 - R) Y
        rw [abs_sub_comm (y1 - R) Y] at a2
        have a3 := mul_le_mul_of_nonneg_right G1 (show 0 ≤ |Y| + A by linarith)
        linarith
      have k2 : |y1 - (y - v)| ≤ 33 / 32 / 2 ^ 53 * |y1| + |v| / 2 ^ 53 := by
        have : y1 - (y - v) = (y1 - (y - w)) - (w - v) := by ring
        rw [this]
        exact (abs_sub _ _).trans (add_le_add h2 h3)
      have k3 : |Y - (y - (v + R))| ≤ |Y - (y1 - R)| + |y1 - (y - v)| := by
        have : Y - (y - (v + R)) = (Y - (y1 - R)) + (y1 - (y - v)) := by ring
        rw [this]
        exact abs_add_le _ _
      have k4 : 0 ≤ G * |v| := mul_nonneg G0 (abs_nonneg _)
      have hv0 := abs_nonneg v
      norm_num at k1 k2 k3 h1 ⊢
      linarith
    · simp only [h, if_false, zero_add] at hc ⊢
      have e4 : rowFold fl tr (e :: l) i x y = rowFold fl tr l i x y := by
        rw [rowFold, List.foldl_cons, if_neg h]; rfl
      rw [e4]
      exact ih y hc

/-- The product with one column. -/
theorem spdmColR_ok {fl : Rat → Rat} {xoff xlen yoff ylen j : Nat} {tr : Bool}
    (hd : xoff + xlen ≤ yoff ∨ yoff + ylen ≤ xoff) (l : List (Nat × Nat × Rat))
    (hl : ∀ e ∈ l, (if tr then e.2.1 else e.1) < ylen ∧ (if tr then e.1 else e.2.1) < xlen)
    (b : Mat Rat) (hx : xoff + xlen ≤ b.rows) (hy : yoff + ylen ≤ b.rows) (hj : j < b.cols) :
    ∃ b', l.foldlM (Rounded.spdmEntry fl xoff xlen yoff ylen j tr) b = .ok b' ∧ b'.rows = b.rows ∧ b'.cols = b.cols ∧
      (∀ i, i < ylen → b'.val (yoff + i) j =
        rowFold fl tr l i (fun k => b.val (xoff + k) j) (b.val (yoff + i) j)) ∧
      (∀ r, r < yoff ∨ yoff + ylen ≤ r → b'.val r j = b.val r j) ∧
      ∀ r c, c ≠ j → b'.val r c = b.val r c := by
  induction l generalizing b with
  | nil => exact ⟨b, rfl, rfl, rfl, by simp [rowFold], fun _ _ => rfl, fun _ _ _ => rfl⟩
  | cons e l ih =>
    obtain ⟨i0, k0, v⟩ := e
    have h0 := hl (i0, k0, v) (by simp)
    obtain ⟨i, hi, k, hk, e1⟩ : ∃ i, i = (if tr then k0 else i0) ∧ ∃ k, k = (if tr then i0 else k0) ∧
        Rounded.spdmEntry fl xoff xlen yoff ylen j tr b (i0, k0, v) =
          .ok (b.set (yoff + i) j (fl (b.val (yoff + i) j - fl (v * b.val (xoff + k) j)))) := by
      refine ⟨_, rfl, _, rfl, ?_⟩
      rw [Rounded.spdmEntry]
      cases tr
      · simp only [Bool.false_eq_true, if_false] at h0 ⊢
        rw [if_pos h0, Mat.rd_ok (by omega) hj, Res.ok_bind, Mat.rd_ok (by omega) hj, Res.ok_bind,
          Mat.wr_ok (by omega) hj]
      · simp only [if_true] at h0 ⊢
        rw [if_pos h0, Mat.rd_ok (by omega) hj, Res.ok_bind, Mat.rd_ok (by omega) hj, Res.ok_bind,
          Mat.wr_ok (by omega) hj]
    obtain ⟨w, hw⟩ : ∃ w, w = fl (b.val (yoff + i) j - fl (v * b.val (xoff + k) j)) := ⟨_, rfl⟩
    rw [← hw] at e1
    obtain ⟨b2, e2, r2, c2, h2, k2, o2⟩ := ih (fun e he => hl e (by simp [he])) (b.set (yoff + i) j w) hx hy hj
    simp only [← hi, ← hk] at h0
    have hxs : ∀ k', k' < xlen → (b.set (yoff + i) j w).val (xoff + k') j = b.val (xoff + k') j := by
      intro k' hk'
      simp only [Mat.set]
      rw [if_neg (by omega)]
    refine ⟨b2, by rw [List.foldlM_cons, e1, Res.ok_bind, e2], r2, c2, ?_, ?_, ?_⟩
    · intro i' hi'
      rw [h2 i' hi']
      have hcr : ∀ y, rowFold fl tr l i' (fun k' => (b.set (yoff + i) j w).val (xoff + k') j) y =
          rowFold fl tr l i' (fun k' => b.val (xoff + k') j) y := by
        intro y
        unfold rowFold
        refine List.foldl_ext _ _ _ fun y e he => ?_
        dsimp only
        rw [hxs _ (hl e (by simp [he])).2]
      rw [hcr]
      conv_rhs => rw [rowFold, List.foldl_cons]
      simp only [← hi, ← hk]
      by_cases h : i = i'
      · subst h
        rw [if_pos rfl, ← hw]
        simp only [Mat.set, and_self, if_true]
        rfl
      · rw [if_neg h]
        simp only [Mat.set]
        rw [if_neg (by omega)]
        rfl
    · intro r hr
      rw [k2 r hr]
      simp only [Mat.set]
      rw [if_neg (by omega)]
    · intro r c hc
      rw [o2 r c hc]
      simp only [Mat.set]
      rw [if_neg (fun h => hc h.2)]

theorem spdmR_ok {fl : Rat → Rat} {σ : Sched} (hσ : σ.Valid) {op : Coo Rat} {xoff xlen yoff ylen : Nat} {tr : Bool}
    (hd : xoff + xlen ≤ yoff ∨ yoff + ylen ≤ xoff)
    (hny : (if tr then op.ncols = ylen else op.nrows = ylen))
    (hnx : (if tr then op.nrows = xlen else op.ncols = xlen))
    (hl : ∀ e ∈ op.entries, e.1 < op.nrows ∧ e.2.1 < op.ncols)
    (b : Mat Rat) (hx : xoff + xlen ≤ b.rows) (hy : yoff + ylen ≤ b.rows) :
    ∃ b', Rounded.spdm fl σ op xoff xlen yoff ylen tr b = .ok b' ∧ b'.rows = b.rows ∧ b'.cols = b.cols ∧
      (∀ c, c < b.cols → ∀ i, i < ylen → b'.val (yoff + i) c =
        rowFold fl tr op.entries i (fun k => b.val (xoff + k) c) (b.val (yoff + i) c)) ∧
      ∀ r c, r < yoff ∨ yoff + ylen ≤ r → b'.val r c = b.val r c := by
  have hl' : ∀ e ∈ op.entries, (if tr then e.2.1 else e.1) < ylen ∧ (if tr then e.1 else e.2.1) < xlen := by
    intro e he
    have := hl e he
    cases tr
    · simp only [Bool.false_eq_true, if_false] at hny hnx ⊢; omega
    · simp only [if_true] at hny hnx ⊢; omega
  obtain ⟨b', e, h1, h2, h3, h4⟩ := foldCols (R := b.rows) (C := b.cols)
    (f := fun b j => op.entries.foldlM (Rounded.spdmEntry fl xoff xlen yoff ylen j tr) b)
    (fun c b y => (∀ i, i < ylen → y (yoff + i) =
        rowFold fl tr op.entries i (fun k => b.val (xoff + k) c) (b.val (yoff + i) c)) ∧
      ∀ r, r < yoff ∨ yoff + ylen ≤ r → y r = b.val r c)
    (fun c b b' y hb hq => ⟨fun i hi => by simp only [hb]; exact hq.1 i hi, fun r hr => by rw [hb]; exact hq.2 r hr⟩)
    (fun b1 c hr hc hcc => by
      obtain ⟨b2, e2, r2, c2, g2, k2, o2⟩ := spdmColR_ok (fl := fl) (j := c) hd op.entries hl' b1 (by omega) (by omega)
        (by omega)
      exact ⟨b2, e2, by omega, by omega, ⟨g2, k2⟩, o2⟩)
    (σ.cols b.cols) (hσ.nodup _) (fun c hc => hσ.mem.1 hc) b rfl rfl
  refine ⟨b', ?_, h1, h2, fun c hc => (h3 c (hσ.mem.2 hc)).1, fun r c hr => ?_⟩
  · rw [Rounded.spdm, decide_eq_true hny, decide_eq_true hnx]
    exact e
  · by_cases hc : c < b.cols
    · exact (h3 c (hσ.mem.2 hc)).2 r hr
    · exact h4 r c fun h => hc (hσ.mem.1 h)

/-! ## The entries that are kept -/

/-- The matrix whose entries are in the coordinate format. -/
def trimR (fl : Rat → Rat) (a : Mat Rat) : Nat → Nat → Rat :=
  fun i j => if fl cooTol ≤ |a.val i j| then a.val i j else 0

theorem fl_cooTol {fl : Rat → Rat} (hfl : Spec.RoundsAll fl) : 0 ≤ fl cooTol ∧ fl cooTol ≤ 11 / 10 ^ 15 := by
  have h := abs_le.1 (hfl.error cooTol)
  rw [cooTol, abs_of_pos (by norm_num)] at *
  norm_num at h ⊢
  constructor <;> linarith

theorem trimR_near {fl : Rat → Rat} (hfl : Spec.RoundsAll fl) (a : Mat Rat) (i j : Nat) :
    |a.val i j - trimR fl a i j| ≤ 11 / 10 ^ 15 := by
  rw [trimR]
  split_ifs with h
  · rw [sub_self, abs_zero]; positivity
  · rw [sub_zero]; exact (not_le.1 h).le.trans (fl_cooTol hfl).2

theorem trimR_le (fl : Rat → Rat) (a : Mat Rat) (i j : Nat) : |trimR fl a i j| ≤ |a.val i j| := by
  rw [trimR]
  split_ifs with h
  · exact le_rfl
  · rw [abs_zero]; exact abs_nonneg _

theorem dense2cooR_mem (fl : Rat → Rat) (a : Mat Rat) (e : Nat × Nat × Rat) (he : e ∈ (Rounded.dense2coo fl a).entries) :
    e.1 < a.rows ∧ e.2.1 < a.cols := by
  simp only [Rounded.dense2coo, List.mem_flatMap, List.mem_range, List.mem_filterMap] at he
  obtain ⟨i, hi, j, hj, h⟩ := he
  split_ifs at h
  obtain rfl := Option.some.inj h
  exact ⟨hi, hj⟩

/-- A sum over the non-zeros. -/
theorem sum_dense2cooR (fl : Rat → Rat) (a : Mat Rat) (g : Nat × Nat × Rat → Rat) :
    ((Rounded.dense2coo fl a).entries.map g).sum = ∑ i ∈ range a.rows, ∑ j ∈ range a.cols,
      if fl cooTol ≤ |a.val i j| then g (i, j, a.val i j) else 0 := by
  rw [Rounded.dense2coo]
  simp only
  rw [sum_flatMap, sum_range_list]
  refine sum_congr rfl fun i _ => ?_
  rw [sum_filterMap, sum_range_list]

/-- A sum over the non-zeros of one row or of one column. -/
theorem sum_rowR (fl : Rat → Rat) (a : Mat Rat) (tr : Bool) (i : Nat) (hi : i < if tr then a.cols else a.rows)
    (g : Nat × Nat × Rat → Rat) :
    ((Rounded.dense2coo fl a).entries.map fun e => if (if tr then e.2.1 else e.1) = i then g e else 0).sum =
      ∑ k ∈ range (if tr then a.rows else a.cols), if fl cooTol ≤ |if tr then a.val k i else a.val i k| then
        g (if tr then (k, i, a.val k i) else (i, k, a.val i k)) else 0 := by
  rw [sum_dense2cooR]
  cases tr
  · simp only [Bool.false_eq_true, if_false] at hi ⊢
    rw [sum_eq_single i]
    · exact sum_congr rfl fun k _ => by rw [if_pos rfl]
    · intro i' _ hne
      refine sum_eq_zero fun j _ => ?_
      rw [if_neg hne, ite_self]
    · intro h; exact absurd (mem_range.2 hi) h
  · simp only [if_true] at hi ⊢
    refine sum_congr rfl fun k _ => ?_
    rw [sum_eq_single i]
    · rw [if_pos rfl]
    · intro j _ hne
      rw [if_neg hne, ite_self]
    · intro h; exact absurd (mem_range.2 hi) h

theorem cooRowR (fl : Rat → Rat) (a : Mat Rat) (tr : Bool) (i : Nat) (hi : i < if tr then a.cols else a.rows)
    (x : Nat → Rat) :
    cooRow tr (Rounded.dense2coo fl a).entries i x =
      ∑ k ∈ range (if tr then a.rows else a.cols), (if tr then trimR fl a k i else trimR fl a i k) * x k := by
  rw [cooRow, sum_rowR fl a tr i hi fun e => e.2.2 * x (if tr then e.1 else e.2.1)]
  refine sum_congr rfl fun k _ => ?_
  cases tr
  · simp only [Bool.false_eq_true, if_false, trimR]
    split_ifs <;> simp
  · simp only [if_true, trimR]
    split_ifs <;> simp

theorem cooAbsR (fl : Rat → Rat) (a : Mat Rat) (tr : Bool) (i : Nat) (hi : i < if tr then a.cols else a.rows)
    (x : Nat → Rat) :
    cooAbs tr (Rounded.dense2coo fl a).entries i x =
      ∑ k ∈ range (if tr then a.rows else a.cols), |if tr then trimR fl a k i else trimR fl a i k| * |x k| := by
  rw [cooAbs, sum_rowR fl a tr i hi fun e => |e.2.2| * |x (if tr then e.1 else e.2.1)|]
  refine sum_congr rfl fun k _ => ?_
  cases tr
  · simp only [Bool.false_eq_true, if_false, trimR]
    split_ifs <;> simp
  · simp only [if_true, trimR]
    split_ifs <;> simp

theorem cooCountR (fl : Rat → Rat) (a : Mat Rat) (tr : Bool) (i : Nat) (hi : i < if tr then a.cols else a.rows) :
    cooCount tr (Rounded.dense2coo fl a).entries i ≤ ((if tr then a.rows else a.cols : Nat) : Rat) := by
  rw [cooCount, sum_rowR fl a tr i hi fun _ => 1]
  calc _ ≤ ∑ _k ∈ range (if tr then a.rows else a.cols), (1 : Rat) := sum_le_sum fun k _ => by
        split_ifs <;> norm_num
    _ = _ := by simp

/-- One product with a matrix in coordinate format. -/
theorem rowFoldR_near {fl : Rat → Rat} (hfl : Spec.RoundsAll fl) (a : Mat Rat) (tr : Bool) (i n : Nat)
    (hi : i < if tr then a.cols else a.rows) (hn : (if tr then a.rows else a.cols) ≤ n) (hn' : n ≤ 2 ^ 40) (x : Nat → Rat)
    (y : Rat) :
    |rowFold fl tr (Rounded.dense2coo fl a).entries i x y -
      (y - ∑ k ∈ range (if tr then a.rows else a.cols), (if tr then trimR fl a k i else trimR fl a i k) * x k)| ≤
      17 / 16 * n / 2 ^ 53 * (|rowFold fl tr (Rounded.dense2coo fl a).entries i x y| +
        ∑ k ∈ range (if tr then a.rows else a.cols), |if tr then trimR fl a k i else trimR fl a i k| * |x k|) := by
  have h1 := cooCountR fl a tr i hi
  have h2 : ((if tr then a.rows else a.cols : Nat) : Rat) ≤ n := by exact_mod_cast hn
  have h3 : (n : Rat) ≤ 2 ^ 40 := by exact_mod_cast hn'
  have h4 := rowFold_near hfl tr (Rounded.dense2coo fl a).entries i x y (by linarith)
  rw [cooRowR fl a tr i hi, cooAbsR fl a tr i hi] at h4
  refine h4.trans (mul_le_mul_of_nonneg_right ?_ (add_nonneg (abs_nonneg _) (sum_nonneg fun _ _ => by positivity)))
  gcongr
  linarith

/-! ## The Schur complement -/

/-- The entry of the Schur complement up to rounding. -/
def SchurNear (nq : Nat) (bl T : Mat Rat) (x v : Rat) (i j : Nat) : Prop :=
  |v - (x - ∑ l ∈ range nq, bl.val i l * T.val l j)| ≤
    (up (nq + 2) - 1) * (|x| + ∑ l ∈ range nq, |bl.val i l| * |T.val l j|)

theorem schurLoopR {fl : Rat → Rat} (hfl : Spec.RoundsAll fl) {nq : Nat} (bl T : Mat Rat) {i j : Nat} (h1 : i < bl.rows)
    (h2 : bl.cols = nq) (h3 : T.rows = nq) (h4 : j < T.cols) :
    ∃ s, forLoop (fun l val => do
      let x ← bl.rd i l
      let y ← T.rd l j
      .ok (fl (val + fl (x * y)))) 0 nq (0 : Rat) = .ok s ∧
      |∑ l ∈ range nq, bl.val i l * T.val l j| ≤ ∑ l ∈ range nq, |bl.val i l * T.val l j| ∧
      |s - ∑ l ∈ range nq, bl.val i l * T.val l j| ≤ (up (nq + 1) - 1) * ∑ l ∈ range nq, |bl.val i l * T.val l j| := by
  obtain ⟨s, e, hs⟩ := forLoop_inv (fun k (v : Rat) =>
      |∑ l ∈ range k, bl.val i l * T.val l j| ≤ ∑ l ∈ range k, |bl.val i l * T.val l j| ∧
      |v - ∑ l ∈ range k, bl.val i l * T.val l j| ≤ (up (k + 1) - 1) * ∑ l ∈ range k, |bl.val i l * T.val l j|)
    (f := fun l val => do
      let x ← bl.rd i l
      let y ← T.rd l j
      .ok (fl (val + fl (x * y)))) nq 0 (0 : Rat) (by simp)
    (fun l v hl hl' hv => ⟨_, by rw [Mat.rd_ok h1 (by omega), Res.ok_bind, Mat.rd_ok (by omega) h4, Res.ok_bind], by
      rw [sum_range_succ, sum_range_succ]
      exact sum_step hfl hv.1 hv.2 (((Near.refl _).fl hfl).mono (by omega))⟩)
  rw [Nat.zero_add] at hs
  exact ⟨s, e, hs⟩

theorem schurEntryR_ok {fl : Rat → Rat} (hfl : Spec.RoundsAll fl) {nq : Nat} {brn : U64} (bl T br : Mat Rat) {i j : Nat}
    (h1 : bl.rows = brn.toNat)
    (h2 : bl.cols = nq) (h3 : T.rows = nq) (h4 : T.cols = brn.toNat) (h5 : br.rows = brn.toNat)
    (h6 : br.cols = brn.toNat) (hi : i < brn.toNat) (hj : j < brn.toNat) :
    ∃ v, Rounded.schurEntry fl nq bl T brn br (i, j) = .ok (br.set i j v) ∧ SchurNear nq bl T (br.val i j) v i j := by
  have hb := brn.isLt
  have ei : (BitVec.ofNat 64 i).toNat = i := by simp; omega
  have ej : (BitVec.ofNat 64 j).toNat = j := by simp; omega
  obtain ⟨s, e, k1, k2⟩ := schurLoopR hfl (i := i) (j := j) bl T (by omega) h2 h3 (by omega)
  refine ⟨fl (br.val i j - s), ?_, ?_⟩
  · rw [Rounded.schurEntry, e, Res.ok_bind, denseGet_ok h5 h6 (by omega) (by omega), Res.ok_bind,
      denseSet_ok h5 h6 (by omega) (by omega), ei, ej]
  · have k3 := (sum_step hfl (s := -s) (S := -∑ l ∈ range nq, bl.val i l * T.val l j)
      (T := ∑ l ∈ range nq, |bl.val i l * T.val l j|) (m := nq + 1) (by rw [abs_neg]; exact k1)
      (by rw [← neg_sub', abs_neg]; exact k2) ((Near.refl (br.val i j)).mono (by omega))).2
    rw [SchurNear]
    have e1 : ∑ l ∈ range nq, |bl.val i l| * |T.val l j| = ∑ l ∈ range nq, |bl.val i l * T.val l j| :=
      sum_congr rfl fun l _ => (abs_mul _ _).symm
    rw [e1, add_comm |br.val i j|, sub_eq_neg_add (br.val i j) s, sub_eq_neg_add (br.val i j)]
    exact k3

theorem schurFoldR {fl : Rat → Rat} (hfl : Spec.RoundsAll fl) {nq : Nat} {brn : U64} (bl T : Mat Rat)
    (h1 : bl.rows = brn.toNat)
    (h2 : bl.cols = nq) (h3 : T.rows = nq) (h4 : T.cols = brn.toNat) (l : List (Nat × Nat)) (hl : l.Nodup)
    (hm : ∀ p ∈ l, p.1 < brn.toNat ∧ p.2 < brn.toNat) (br : Mat Rat) (h5 : br.rows = brn.toNat)
    (h6 : br.cols = brn.toNat) :
    ∃ b', l.foldlM (Rounded.schurEntry fl nq bl T brn) br = .ok b' ∧ b'.rows = brn.toNat ∧ b'.cols = brn.toNat ∧
      ∀ i j, ((i, j) ∈ l → SchurNear nq bl T (br.val i j) (b'.val i j) i j) ∧
        ((i, j) ∉ l → b'.val i j = br.val i j) := by
  induction l generalizing br with
  | nil => exact ⟨br, rfl, h5, h6, by simp⟩
  | cons p l ih =>
    obtain ⟨i0, j0⟩ := p
    have h0 := hm (i0, j0) (by simp)
    obtain ⟨v, ev, hv⟩ := schurEntryR_ok hfl bl T br h1 h2 h3 h4 h5 h6 h0.1 h0.2
    obtain ⟨b2, e2, r2, c2, h⟩ := ih (List.nodup_cons.1 hl).2 (fun p hp => hm p (by simp [hp])) (br.set i0 j0 v) h5 h6
    refine ⟨b2, by rw [List.foldlM_cons, ev, Res.ok_bind, e2], r2, c2, ?_⟩
    intro i j
    have hne := (List.nodup_cons.1 hl).1
    by_cases hij : i = i0 ∧ j = j0
    · obtain ⟨rfl, rfl⟩ := hij
      refine ⟨fun _ => ?_, fun h' => absurd (by simp) h'⟩
      rw [(h i j).2 hne]
      simpa [Mat.set] using hv
    · have e : (br.set i0 j0 v).val i j = br.val i j := by
        simp only [Mat.set]
        rw [if_neg hij]
      have hmem : (i, j) ∈ (i0, j0) :: l ↔ (i, j) ∈ l := by simp [hij]
      rw [hmem]
      have := h i j
      rw [e] at this
      exact this

theorem schurR_ok {fl : Rat → Rat} (hfl : Spec.RoundsAll fl) {σ : Sched} (hσ : σ.Valid) {nq : Nat} {brn : U64}
    (bl T br : Mat Rat) (h1 : bl.rows = brn.toNat)
    (h2 : bl.cols = nq) (h3 : T.rows = nq) (h4 : T.cols = brn.toNat) (h5 : br.rows = brn.toNat)
    (h6 : br.cols = brn.toNat) :
    ∃ b', Rounded.schur fl σ nq bl T brn br = .ok b' ∧ b'.rows = brn.toNat ∧ b'.cols = brn.toNat ∧
      ∀ i j, i < brn.toNat → j < brn.toNat → SchurNear nq bl T (br.val i j) (b'.val i j) i j := by
  have hp := hσ.pairs brn.toNat
  have hmem : ∀ p : Nat × Nat, p ∈ σ.pairs brn.toNat ↔ p.1 < brn.toNat ∧ p.2 < brn.toNat := by
    intro p
    rw [hp.mem_iff]
    obtain ⟨x, y⟩ := p
    simp [List.pair_mem_product]
  obtain ⟨b', e, r, c, h⟩ := schurFoldR hfl bl T h1 h2 h3 h4 (σ.pairs brn.toNat)
    (hp.nodup_iff.2 (List.Nodup.product List.nodup_range List.nodup_range)) (fun p hp => (hmem p).1 hp) br h5 h6
  exact ⟨b', e, r, c, fun i j hi hj => (h i j).1 ((hmem (i, j)).2 ⟨hi, hj⟩)⟩

end DDC
