import Verif.Model.Linear
import Verif.Spec.Linear
import Verif.Lemmas.Loop
import Mathlib.Tactic.SplitIfs
import Mathlib.Tactic.Linarith

/-!
# Reasoning about the storages of the linear problems
-/

set_option linter.unusedSectionVars false

namespace DDC

variable {K : Type} [Field K] [LinearOrder K]

namespace Mat

/-- The array after a write. -/
def set (a : Mat K) (i j : Nat) (v : K) : Mat K :=
  ⟨a.rows, a.cols, fun k l => if k = i ∧ l = j then v else a.val k l⟩

omit [Field K] [LinearOrder K] in
theorem rd_ok {a : Mat K} {i j : Nat} (hi : i < a.rows) (hj : j < a.cols) : a.rd i j = .ok (a.val i j) := by
  rw [rd, if_pos ⟨hi, hj⟩]

omit [Field K] [LinearOrder K] in
theorem wr_ok {a : Mat K} {i j : Nat} (hi : i < a.rows) (hj : j < a.cols) (v : K) :
    a.wr i j v = .ok (a.set i j v) := by
  rw [wr, if_pos ⟨hi, hj⟩]; rfl

end Mat

theorem guard_lt {i n : U64} (h : i.toNat < n.toNat) : Res.guardAbort (decide (i < n)) = .ok () := by
  rw [decide_eq_true (BitVec.lt_def.2 h)]; rfl

theorem guard_not_lt {i n : U64} (h : n.toNat ≤ i.toNat) : Res.guardAbort (decide (i < n)) = .abort := by
  rw [decide_eq_false (fun h' => by have := BitVec.lt_def.1 h'; omega)]; rfl

theorem toNat_sub_le {i j : U64} (h : j.toNat ≤ i.toNat) : (i - j).toNat = i.toNat - j.toNat :=
  BitVec.toNat_sub_of_le (BitVec.le_def.2 h)

theorem toNat_add_lt {i j : U64} (h : i.toNat + j.toNat < 2 ^ 64) : (i + j).toNat = i.toNat + j.toNat :=
  BitVec.toNat_add_of_lt h

theorem toNat_one : (1 : U64).toNat = 1 := rfl
theorem toNat_two : (2 : U64).toNat = 2 := rfl

namespace LinProb

/-- The position of the 3x3 blocks in the order of the 2x2 blocks. -/
def pos3 (top nq i : Nat) : Nat := if i < top then i + nq else if i < top + nq then i - top else i

theorem adjust_ok {top nq i n : U64} (h : top.toNat + nq.toNat ≤ n.toNat) (hn : n.toNat < 2 ^ 62)
    (hi : i.toNat < n.toNat) :
    (adjust top nq i).toNat = pos3 top.toNat nq.toNat i.toNat ∧
      pos3 top.toNat nq.toNat i.toNat < n.toNat := by
  rw [adjust, pos3]
  simp only [BitVec.lt_def, toNat_add_lt (show top.toNat + nq.toNat < 2 ^ 64 by omega)]
  split_ifs with h1 h2
  · rw [toNat_add_lt (by omega)]; omega
  · rw [toNat_sub_le (by omega)]; omega
  · omega

/-- The entry of a block matrix. -/
def entry2 (nq : Nat) (tl : Nat → Nat → K) (tr bl br : Mat K) (i j : Nat) : K :=
  if i < nq ∧ j < nq then tl i j
  else if nq ≤ i ∧ nq ≤ j then br.val (i - nq) (j - nq)
  else if nq ≤ j then tr.val i (j - nq) else bl.val (i - nq) j

/-- The entries of the matrix that is represented. -/
def entry : LinProb K → Nat → Nat → K
  | dense _ a => lapackDense a
  | band _ kl ku q => lapackBand kl.toNat ku.toNat q
  | pdsBand _ ext q => lapackSymBand (ext.toNat - 1) q
  | pdsTridiag _ q => lapackTridiag (q.val 0) (q.val 1)
  | blocks2 _ tl tr bl _ br => entry2 tl.size.toNat (entry tl) tr bl br
  | blocks3 _ top tl tr bl _ br => fun i j =>
    entry2 tl.size.toNat (entry tl) tr bl br (pos3 top.toNat tl.size.toNat i) (pos3 top.toNat tl.size.toNat j)

/-- The storages have the shapes of the constructors; no index computation wraps. -/
def Shaped : LinProb K → Prop
  | dense n a => n.toNat < 2 ^ 62 ∧ a.rows = n.toNat ∧ a.cols = n.toNat
  | band n kl ku q => n.toNat < 2 ^ 62 ∧ kl.toNat < 2 ^ 61 ∧ ku.toNat < 2 ^ 61 ∧
    q.rows = 2 * kl.toNat + ku.toNat + 1 ∧ q.cols = n.toNat
  | pdsBand n ext q => n.toNat < 2 ^ 62 ∧ 0 < ext.toNat ∧ q.rows = ext.toNat ∧ q.cols = n.toNat
  | pdsTridiag n q => n.toNat < 2 ^ 62 ∧ q.rows = 2 ∧ q.cols = n.toNat
  | blocks2 n tl tr bl brn br => n.toNat < 2 ^ 62 ∧ Shaped tl ∧ tl.size.toNat + brn.toNat = n.toNat ∧
    tr.rows = tl.size.toNat ∧ tr.cols = brn.toNat ∧ bl.rows = brn.toNat ∧ bl.cols = tl.size.toNat ∧
    br.rows = brn.toNat ∧ br.cols = brn.toNat
  | blocks3 n top tl tr bl brn br => n.toNat < 2 ^ 62 ∧ Shaped tl ∧ tl.size.toNat + brn.toNat = n.toNat ∧
    tr.rows = tl.size.toNat ∧ tr.cols = brn.toNat ∧ bl.rows = brn.toNat ∧ bl.cols = tl.size.toNat ∧
    br.rows = brn.toNat ∧ br.cols = brn.toNat ∧ top.toNat ≤ brn.toNat

theorem Shaped.small {p : LinProb K} (h : p.Shaped) : p.size.toNat < 2 ^ 62 := by
  cases p <;> exact h.1

end LinProb

/-! ## Dense -/

theorem denseGet_ok {n i j : U64} {a : Mat K} (hr : a.rows = n.toNat) (hc : a.cols = n.toNat)
    (hi : i.toNat < n.toNat) (hj : j.toNat < n.toNat) : denseGet n a i j = .ok (a.val i.toNat j.toNat) := by
  rw [denseGet, guard_lt hi, Res.ok_bind, guard_lt hj, Res.ok_bind, Mat.rd_ok (by omega) (by omega)]

theorem denseSet_ok {n i j : U64} {a : Mat K} (hr : a.rows = n.toNat) (hc : a.cols = n.toNat)
    (hi : i.toNat < n.toNat) (hj : j.toNat < n.toNat) (v : K) :
    denseSet n a i j v = .ok (a.set i.toNat j.toNat v) := by
  rw [denseSet, guard_lt hi, Res.ok_bind, guard_lt hj, Res.ok_bind, Mat.wr_ok (by omega) (by omega)]

/-! ## Band -/

theorem inBand_ok {n kl ku i j : U64} (hn : n.toNat < 2 ^ 62) (hkl : kl.toNat < 2 ^ 61)
    (hku : ku.toNat < 2 ^ 61) (hi : i.toNat < n.toNat) (hj : j.toNat < n.toNat) :
    inBand n kl ku i j = .ok (decide (j.toNat ≤ i.toNat + ku.toNat ∧ i.toNat ≤ j.toNat + kl.toNat)) := by
  have e1 : (j.toInt : Int) = j.toNat := BitVec.toInt_eq_toNat_of_lt (by omega)
  have e2 : (ku.toInt : Int) = ku.toNat := BitVec.toInt_eq_toNat_of_lt (by omega)
  have e3 : (j + kl + 1).toNat = j.toNat + kl.toNat + 1 := by
    rw [toNat_add_lt (by rw [toNat_add_lt (by omega), toNat_one]; omega), toNat_add_lt (by omega), toNat_one]
  obtain ⟨d, ed, hd⟩ : ∃ d : I64, sSub j ku = .ok d ∧ d.toInt = (j.toNat : Int) - ku.toNat := by
    rw [sSub, signedRes, e1, e2, if_pos (by omega)]
    exact ⟨_, rfl, BitVec.toInt_ofInt_eq_self (by omega) (by omega) (by omega)⟩
  rw [inBand, ed, Res.ok_bind]
  dsimp only
  congr 1
  have h0 : sLt 0 d = decide (ku.toNat < j.toNat) := by
    rw [sLt, hd]; exact decide_eq_decide.2 (by rw [show (0 : I64).toInt = 0 from rfl]; omega)
  rw [h0]
  have hd' : ku.toNat < j.toNat → d.toNat = j.toNat - ku.toNat := by
    intro h
    have := BitVec.toInt_eq_toNat_cond d
    rw [hd] at this
    split_ifs at this <;> omega
  rw [← Bool.decide_and]
  refine decide_eq_decide.2 ?_
  simp only [BitVec.le_def, BitVec.lt_def]
  by_cases h : ku.toNat < j.toNat <;> by_cases h2 : j.toNat + kl.toNat + 1 < n.toNat <;>
    simp only [h, h2, e3, decide_true, decide_false, if_true, if_false, Bool.false_eq_true]
  · rw [hd' h]; omega
  · rw [hd' h]; omega
  · rw [show (0 : U64).toNat = 0 from rfl]; omega
  · rw [show (0 : U64).toNat = 0 from rfl]; omega

theorem bandRow_ok {kl ku i j : U64} (hkl : kl.toNat < 2 ^ 61) (hku : ku.toNat < 2 ^ 61)
    (hi : i.toNat < 2 ^ 62) (h : j.toNat ≤ i.toNat + ku.toNat) :
    (bandRow kl ku i j).toNat = kl.toNat + ku.toNat + i.toNat - j.toNat := by
  have e : (kl + ku + i).toNat = kl.toNat + ku.toNat + i.toNat := by
    rw [toNat_add_lt (by rw [toNat_add_lt (by omega)]; omega), toNat_add_lt (by omega)]
  rw [bandRow, toNat_sub_le (by rw [e]; omega), e]

theorem bandGet_ok {n kl ku i j : U64} {q : Mat K} (hn : n.toNat < 2 ^ 62) (hkl : kl.toNat < 2 ^ 61)
    (hku : ku.toNat < 2 ^ 61) (hr : q.rows = 2 * kl.toNat + ku.toNat + 1) (hc : q.cols = n.toNat)
    (hi : i.toNat < n.toNat) (hj : j.toNat < n.toNat) :
    bandGet n kl ku q i j = .ok (lapackBand kl.toNat ku.toNat q i.toNat j.toNat) := by
  rw [bandGet, guard_lt hi, Res.ok_bind, guard_lt hj, Res.ok_bind, inBand_ok hn hkl hku hi hj, Res.ok_bind,
    lapackBand]
  simp only [decide_eq_true_eq]
  split_ifs with h
  · rw [bandRow_ok hkl hku (by omega) h.1, Mat.rd_ok (by omega) (by omega)]
  · rfl

theorem bandSet_in {n kl ku i j : U64} {q : Mat K} (hn : n.toNat < 2 ^ 62) (hkl : kl.toNat < 2 ^ 61)
    (hku : ku.toNat < 2 ^ 61) (hr : q.rows = 2 * kl.toNat + ku.toNat + 1) (hc : q.cols = n.toNat)
    (hi : i.toNat < n.toNat) (hj : j.toNat < n.toNat)
    (h : j.toNat ≤ i.toNat + ku.toNat ∧ i.toNat ≤ j.toNat + kl.toNat) (v : K) :
    bandSet n kl ku q i j v =
      .ok (q.set (kl.toNat + ku.toNat + i.toNat - j.toNat) j.toNat v) := by
  rw [bandSet, guard_lt hi, Res.ok_bind, guard_lt hj, Res.ok_bind, inBand_ok hn hkl hku hi hj, Res.ok_bind]
  simp only [decide_eq_true_eq]
  rw [if_pos h, bandRow_ok hkl hku (by omega) h.1, Mat.wr_ok (by omega) (by omega)]

theorem bandSet_out {n kl ku i j : U64} {q : Mat K} (hn : n.toNat < 2 ^ 62) (hkl : kl.toNat < 2 ^ 61)
    (hku : ku.toNat < 2 ^ 61) (hi : i.toNat < n.toNat) (hj : j.toNat < n.toNat)
    (h : ¬(j.toNat ≤ i.toNat + ku.toNat ∧ i.toNat ≤ j.toNat + kl.toNat)) (v : K) :
    bandSet n kl ku q i j v = if |v| < bandTol then .ok q else .abort := by
  rw [bandSet, guard_lt hi, Res.ok_bind, guard_lt hj, Res.ok_bind, inBand_ok hn hkl hku hi hj, Res.ok_bind]
  simp only [decide_eq_true_eq]
  rw [if_neg h]
  split_ifs with h' <;> simp [h']

/-! ## Symmetric storages -/

theorem symGet_ok {n ext i j : U64} {q : Mat K} (he : 0 < ext.toNat) (hr : q.rows = ext.toNat)
    (hc : q.cols = n.toNat) (hi : i.toNat < n.toNat) (hj : j.toNat < n.toNat) :
    symGet n ext q i j = .ok (lapackSymBand (ext.toNat - 1) q i.toNat j.toNat) := by
  rw [symGet, guard_lt hi, Res.ok_bind, guard_lt hj, Res.ok_bind, lapackSymBand]
  by_cases h : j < i
  · have h' := BitVec.lt_def.1 h
    rw [if_pos h]
    dsimp only
    rw [if_pos h'.le]
    simp only [BitVec.lt_def, toNat_sub_le h'.le]
    split_ifs with h1 h2 h2
    · rw [Mat.rd_ok (by omega) (by omega)]
    · omega
    · omega
    · rfl
  · have h' : i.toNat ≤ j.toNat := by rw [BitVec.lt_def] at h; omega
    rw [if_neg h]
    dsimp only
    simp only [BitVec.lt_def, toNat_sub_le h']
    by_cases h2 : j.toNat ≤ i.toNat
    · have e : i.toNat = j.toNat := by omega
      rw [if_pos h2, e, Nat.sub_self, if_pos he, if_pos (by omega), Mat.rd_ok (by omega) (by omega)]
    · rw [if_neg h2]
      split_ifs with h3 h4 h4
      · rw [Mat.rd_ok (by omega) (by omega)]
      · omega
      · omega
      · rfl

theorem symSet_in {n ext i j : U64} {q : Mat K} (hr : q.rows = ext.toNat) (hc : q.cols = n.toNat)
    (hi : i.toNat < n.toNat) (hj : j.toNat < n.toNat)
    (h : i.toNat < j.toNat + ext.toNat ∧ j.toNat < i.toNat + ext.toNat) (v : K) :
    symSet n ext q i j v = .ok (q.set (max i.toNat j.toNat - min i.toNat j.toNat) (min i.toNat j.toNat) v) := by
  rw [symSet, guard_lt hi, Res.ok_bind, guard_lt hj, Res.ok_bind]
  by_cases h' : j < i
  · have h2 := BitVec.lt_def.1 h'
    rw [if_pos h']
    dsimp only
    simp only [BitVec.lt_def, toNat_sub_le h2.le]
    rw [if_pos (by omega), Mat.wr_ok (by omega) (by omega),
      max_eq_left h2.le, min_eq_right h2.le]
  · have h2 : i.toNat ≤ j.toNat := by rw [BitVec.lt_def] at h'; omega
    rw [if_neg h']
    dsimp only
    simp only [BitVec.lt_def, toNat_sub_le h2]
    rw [if_pos (by omega), Mat.wr_ok (by omega) (by omega),
      max_eq_right h2, min_eq_left h2]

theorem symSet_out {n ext i j : U64} {q : Mat K} (hi : i.toNat < n.toNat) (hj : j.toNat < n.toNat)
    (h : ¬(i.toNat < j.toNat + ext.toNat ∧ j.toNat < i.toNat + ext.toNat)) (v : K) :
    symSet n ext q i j v = if |v| < bandTol then .ok q else .abort := by
  have key : (Res.guardAbort (decide (|v| < (bandTol : K))) >>= fun _ => Res.ok q) =
      if |v| < bandTol then .ok q else .abort := by split_ifs with h' <;> simp [h']
  rw [symSet, guard_lt hi, Res.ok_bind, guard_lt hj, Res.ok_bind]
  by_cases h' : j < i
  · have h2 := BitVec.lt_def.1 h'
    rw [if_pos h']
    dsimp only
    simp only [BitVec.lt_def, toNat_sub_le h2.le]
    rw [if_neg (by omega)]
    exact key
  · have h2 : i.toNat ≤ j.toNat := by rw [BitVec.lt_def] at h'; omega
    rw [if_neg h']
    dsimp only
    simp only [BitVec.lt_def, toNat_sub_le h2]
    rw [if_neg (by omega)]
    exact key

/-- The entries after a write in a symmetric storage. -/
theorem lapackSymBand_set {d : Nat} {q : Mat K} {i j : Nat} (h : i ≤ j + d ∧ j ≤ i + d) (v : K) (k l : Nat) :
    lapackSymBand d (q.set (max i j - min i j) (min i j) v) k l =
      if (k = i ∧ l = j) ∨ (k = j ∧ l = i) then v else lapackSymBand d q k l := by
  rcases Nat.le_total i j with hij | hij
  · rw [max_eq_right hij, min_eq_left hij]
    simp only [lapackSymBand, Mat.set]
    split_ifs <;> first | rfl | omega
  · rw [max_eq_left hij, min_eq_right hij]
    simp only [lapackSymBand, Mat.set]
    split_ifs <;> first | rfl | omega

/-- Two rows are enough for a tridiagonal matrix. -/
theorem lapackTridiag_eq (q : Mat K) : lapackTridiag (q.val 0) (q.val 1) = lapackSymBand 1 q := by
  funext i j
  simp only [lapackTridiag, lapackSymBand]
  split_ifs
  all_goals first
    | rfl
    | omega
    | (congr 1; omega)
    | skip

/-! ## All problems -/

namespace LinProb

theorem get2_ok {n nq : U64} {tlGet : U64 → U64 → Res K} {tl : Nat → Nat → K} {tr bl br : Mat K} {brn : U64}
    (hs : nq.toNat + brn.toNat = n.toNat)
    (h1 : tr.rows = nq.toNat) (h2 : tr.cols = brn.toNat) (h3 : bl.rows = brn.toNat) (h4 : bl.cols = nq.toNat)
    (h5 : br.rows = brn.toNat) (h6 : br.cols = brn.toNat)
    (htl : ∀ i j : U64, i.toNat < nq.toNat → j.toNat < nq.toNat → tlGet i j = .ok (tl i.toNat j.toNat))
    {i j : U64} (hi : i.toNat < n.toNat) (hj : j.toNat < n.toNat) :
    get2 n nq tlGet tr bl brn br i j = .ok (entry2 nq.toNat tl tr bl br i.toNat j.toNat) := by
  rw [get2, guard_lt hi, Res.ok_bind, guard_lt hj, Res.ok_bind, entry2]
  simp only [BitVec.lt_def, BitVec.le_def]
  split_ifs with c1 c2 c3
  · exact htl i j c1.1 c1.2
  · rw [denseGet_ok h5 h6 (by rw [toNat_sub_le c2.1]; omega) (by rw [toNat_sub_le c2.2]; omega),
      toNat_sub_le c2.1, toNat_sub_le c2.2]
  · rw [toNat_sub_le c3, Mat.rd_ok (by omega) (by omega)]
  · rw [toNat_sub_le (by omega), Mat.rd_ok (by omega) (by omega)]

/-- `get_element` returns the represented entry. -/
theorem get_ok (p : LinProb K) (h : p.Shaped) {i j : U64} (hi : i.toNat < p.size.toNat)
    (hj : j.toNat < p.size.toNat) : p.get i j = .ok (p.entry i.toNat j.toNat) := by
  induction p generalizing i j with
  | dense n a => exact denseGet_ok h.2.1 h.2.2 hi hj
  | band n kl ku q => exact bandGet_ok h.1 h.2.1 h.2.2.1 h.2.2.2.1 h.2.2.2.2 hi hj
  | pdsBand n ext q => exact symGet_ok h.2.1 h.2.2.1 h.2.2.2 hi hj
  | pdsTridiag n q =>
    rw [entry, lapackTridiag_eq]
    exact symGet_ok (ext := 2) (by decide) h.2.1 h.2.2 hi hj
  | blocks2 n tl tr bl brn br ih =>
    obtain ⟨_, ht, hs, h1, h2, h3, h4, h5, h6⟩ := h
    exact get2_ok hs h1 h2 h3 h4 h5 h6 (fun i j hi hj => ih ht hi hj) hi hj
  | blocks3 n top tl tr bl brn br ih =>
    obtain ⟨hn, ht, hs, h1, h2, h3, h4, h5, h6, h7⟩ := h
    have ai := adjust_ok (top := top) (nq := tl.size) (n := n) (by omega) hn hi
    have aj := adjust_ok (top := top) (nq := tl.size) (n := n) (by omega) hn hj
    rw [get, get2_ok hs h1 h2 h3 h4 h5 h6 (fun i j hi hj => ih ht hi hj) (by rw [ai.1]; exact ai.2)
      (by rw [aj.1]; exact aj.2), ai.1, aj.1]
    rfl

/-- An index out of the matrix stops the program. -/
theorem get_out (p : LinProb K) (h : p.Shaped) {i j : U64}
    (hij : p.size.toNat ≤ i.toNat ∨ p.size.toNat ≤ j.toNat) : p.get i j = .abort := by
  have key : ∀ {α : Type} (n i j : U64) (f : Res α), n.toNat ≤ i.toNat ∨ n.toNat ≤ j.toNat →
      (Res.guardAbort (decide (i < n)) >>= fun _ => Res.guardAbort (decide (j < n)) >>= fun _ => f) = .abort := by
    intro α n i j f h
    rcases Nat.lt_or_ge i.toNat n.toNat with h1 | h1
    · rw [guard_lt h1, Res.ok_bind, guard_not_lt (by omega)]; rfl
    · rw [guard_not_lt h1]; rfl
  cases p with
  | blocks3 n top tl tr bl brn br =>
    have hn := h.1
    obtain ⟨-, -, hs, -, -, -, -, -, -, h7⟩ := h
    have ha : ∀ i : U64, n.toNat ≤ i.toNat → adjust top tl.size i = i := by
      intro i hi
      rw [adjust, if_neg (by rw [BitVec.lt_def]; omega),
        if_neg (by rw [BitVec.lt_def, toNat_add_lt (by omega)]; omega)]
    refine key n _ _ _ ?_
    rcases hij with h | h
    · left; rw [ha i h]; exact h
    · right; rw [ha j h]; exact h
  | _ => exact key _ _ _ _ hij

omit [Field K] [LinearOrder K] in
theorem Same.refl' (p : LinProb K) (x : Nat × Nat) : p.Same x x := by
  cases p <;> first | rfl | exact Or.inl rfl

/-- What a write does. -/
structure Writes (p p' : LinProb K) (i j : Nat) (v : K) : Prop where
  shaped : p'.Shaped
  size : p'.size = p.size
  stored : p'.Stored = p.Stored
  same : p'.Same = p.Same
  hit : ∀ k l, k < p.size.toNat → l < p.size.toNat → p.Same (i, j) (k, l) → p'.entry k l = v
  miss : ∀ k l, k < p.size.toNat → l < p.size.toNat → ¬ p.Same (i, j) (k, l) → p'.entry k l = p.entry k l

theorem set2_ok {n : U64} {tl : LinProb K} {tr bl br : Mat K} {brn : U64}
    {mk : LinProb K → Mat K → Mat K → Mat K → LinProb K}
    (ht : tl.Shaped) (hs : tl.size.toNat + brn.toNat = n.toNat)
    (h1 : tr.rows = tl.size.toNat) (h2 : tr.cols = brn.toNat) (h3 : bl.rows = brn.toNat)
    (h4 : bl.cols = tl.size.toNat) (h5 : br.rows = brn.toNat) (h6 : br.cols = brn.toNat)
    {i j : U64} {v : K} (hi : i.toNat < n.toNat) (hj : j.toNat < n.toNat)
    (htl : i.toNat < tl.size.toNat → j.toNat < tl.size.toNat →
      ∃ tl', set tl i j v = .ok tl' ∧ Writes tl tl' i.toNat j.toNat v) :
    ∃ tl' tr' bl' br', set2 n tl (set tl) tr bl brn br mk i j v = .ok (mk tl' tr' bl' br') ∧
      tl'.Shaped ∧ tl'.size = tl.size ∧ tl'.Stored = tl.Stored ∧ tl'.Same = tl.Same ∧
      tr'.rows = tl.size.toNat ∧ tr'.cols = brn.toNat ∧ bl'.rows = brn.toNat ∧ bl'.cols = tl.size.toNat ∧
      br'.rows = brn.toNat ∧ br'.cols = brn.toNat ∧
      (∀ k l, k < n.toNat → l < n.toNat → ((k, l) = (i.toNat, j.toNat) ∨
          (i.toNat < tl.size.toNat ∧ j.toNat < tl.size.toNat ∧ k < tl.size.toNat ∧ l < tl.size.toNat ∧
            tl.Same (i.toNat, j.toNat) (k, l))) → entry2 tl.size.toNat tl'.entry tr' bl' br' k l = v) ∧
      (∀ k l, k < n.toNat → l < n.toNat → ¬((k, l) = (i.toNat, j.toNat) ∨
          (i.toNat < tl.size.toNat ∧ j.toNat < tl.size.toNat ∧ k < tl.size.toNat ∧ l < tl.size.toNat ∧
            tl.Same (i.toNat, j.toNat) (k, l))) →
          entry2 tl.size.toNat tl'.entry tr' bl' br' k l = entry2 tl.size.toNat tl.entry tr bl br k l) := by
  rw [set2, guard_lt hi, Res.ok_bind, guard_lt hj, Res.ok_bind]
  simp only [BitVec.lt_def, BitVec.le_def]
  split_ifs with c1 c2 c3
  · obtain ⟨tl', e, w⟩ := htl c1.1 c1.2
    refine ⟨tl', tr, bl, br, by rw [e, Res.ok_bind], w.shaped, w.size, w.stored, w.same, h1, h2, h3, h4, h5,
      h6, ?_, ?_⟩
    · rintro k l hk hl h
      have hkl : k < tl.size.toNat ∧ l < tl.size.toNat ∧ tl.Same (i.toNat, j.toNat) (k, l) := by
        rcases h with h | h
        · obtain ⟨rfl, rfl⟩ := Prod.mk.inj h
          exact ⟨c1.1, c1.2, Same.refl' _ _⟩
        · exact ⟨h.2.2.1, h.2.2.2.1, h.2.2.2.2⟩
      rw [entry2, if_pos ⟨hkl.1, hkl.2.1⟩]
      exact w.hit k l hkl.1 hkl.2.1 hkl.2.2
    · intro k l hk hl h
      by_cases hkl : k < tl.size.toNat ∧ l < tl.size.toNat
      · rw [entry2, entry2, if_pos hkl, if_pos hkl]
        exact w.miss k l hkl.1 hkl.2 fun hs => h (.inr ⟨c1.1, c1.2, hkl.1, hkl.2, hs⟩)
      · rw [entry2, entry2, if_neg hkl, if_neg hkl]
  · refine ⟨tl, tr, bl, br.set (i.toNat - tl.size.toNat) (j.toNat - tl.size.toNat) v, ?_, ht, rfl, rfl, rfl, h1,
      h2, h3, h4, h5, h6, ?_, ?_⟩
    · rw [denseSet_ok h5 h6 (by rw [toNat_sub_le c2.1]; omega) (by rw [toNat_sub_le c2.2]; omega),
        toNat_sub_le c2.1, toNat_sub_le c2.2, Res.ok_bind]
    · rintro k l hk hl (h | h)
      · obtain ⟨rfl, rfl⟩ := Prod.mk.inj h
        rw [entry2, if_neg c1, if_pos c2, Mat.set]
        simp
      · omega
    · intro k l hk hl h
      have h' : ¬(k = i.toNat ∧ l = j.toNat) := fun h' => h (.inl (by rw [h'.1, h'.2]))
      simp only [entry2, Mat.set]
      split_ifs <;> first | rfl | omega
  · refine ⟨tl, tr.set i.toNat (j.toNat - tl.size.toNat) v, bl, br, ?_, ht, rfl, rfl, rfl, h1, h2, h3, h4, h5,
      h6, ?_, ?_⟩
    · rw [toNat_sub_le c3, Mat.wr_ok (by omega) (by omega), Res.ok_bind]
    · rintro k l hk hl (h | h)
      · obtain ⟨rfl, rfl⟩ := Prod.mk.inj h
        rw [entry2, if_neg c1, if_neg c2, if_pos c3, Mat.set]
        simp
      · omega
    · intro k l hk hl h
      have h' : ¬(k = i.toNat ∧ l = j.toNat) := fun h' => h (.inl (by rw [h'.1, h'.2]))
      simp only [entry2, Mat.set]
      split_ifs <;> first | rfl | omega
  · refine ⟨tl, tr, bl.set (i.toNat - tl.size.toNat) j.toNat v, br, ?_, ht, rfl, rfl, rfl, h1, h2, h3, h4, h5,
      h6, ?_, ?_⟩
    · rw [toNat_sub_le (by omega), Mat.wr_ok (by omega) (by omega), Res.ok_bind]
    · rintro k l hk hl (h | h)
      · obtain ⟨rfl, rfl⟩ := Prod.mk.inj h
        rw [entry2, if_neg c1, if_neg c2, if_neg c3, Mat.set]
        simp
      · omega
    · intro k l hk hl h
      have h' : ¬(k = i.toNat ∧ l = j.toNat) := fun h' => h (.inl (by rw [h'.1, h'.2]))
      simp only [entry2, Mat.set]
      split_ifs <;> first | rfl | omega

end LinProb
end DDC
