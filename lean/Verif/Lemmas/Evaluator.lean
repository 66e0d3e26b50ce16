import Verif.Model.Evaluator
import Verif.Spec.Evaluator
import Verif.Lemmas.BSpl

/-!
# The loops of the evaluators
-/

set_option linter.unusedSectionVars false

namespace DDC.Props

open One Dom Spec Eval

variable {K : Type} [Field K] [LinearOrder K] [IsStrictOrderedRing K]

/-- A loop that adds terms. -/
theorem forLoop_sum {f : Nat → K → Res K} {g : Nat → K} {k : Nat} (y : K)
    (h : ∀ i, i < k → ∀ y, f i y = .ok (y + g i)) : forLoop f 0 k y = .ok (y + ∑ i ∈ Finset.range k, g i) := by
  obtain ⟨z, e, hz⟩ := forLoop_inv (f := f) (fun i z => z = y + ∑ j ∈ Finset.range i, g j) k 0 y (by simp)
    (by
      intro i z h1 h2 hz
      exact ⟨_, h i (by omega) z, by rw [hz, Finset.sum_range_succ, add_assoc]⟩)
  rw [e, hz, Nat.zero_add]

/-- The sum over the B-splines that are not zero. -/
theorem window_sum {p m size : Nat} (hm : m + p < size) {w : Nat → K} (hw : ∀ J, J < m ∨ m + p < J → w J = 0)
    (F : Nat → K) : ∑ i ∈ Finset.range (p + 1), w (m + i) * F (m + i) = ∑ J ∈ Finset.range size, w J * F J := by
  rw [← Finset.sum_subset (s₁ := (Finset.range (p + 1)).map (addLeftEmbedding m)) (s₂ := Finset.range size)]
  · rw [Finset.sum_map]
    rfl
  · intro J hJ
    obtain ⟨i, hi, rfl⟩ := Finset.mem_map.1 hJ
    have := Finset.mem_range.1 hi
    exact Finset.mem_range.2 (by simp only [addLeftEmbedding_apply]; omega)
  · intro J _ hJ
    rw [hw J, zero_mul]
    by_contra hc
    exact hJ (Finset.mem_map.2 ⟨J - m, Finset.mem_range.2 (by omega), by simp only [addLeftEmbedding_apply]; omega⟩)

variable [FloorRing K]

variable {bs : BSpl K} {per : Bool} {p n : Nat} {t : Nat → K}

/-- The orders of derivation that the code supports. -/
def GoodOrder (bs : BSpl K) (p : Nat) (o : Option Nat) : Prop :=
  ∀ k, o = some k → 0 < k ∧ k ≤ p ∧ (bs.isUniform = true ∨ p.descFactorial k < 2 ^ 31)

/-- The values that `jminVals` computes. -/
structure Window (N p : Nat) (w : Nat → K) (m : Nat) (v : Arr K) : Prop where
  size : v.size = p + 1
  inside : m + p < N
  value : ∀ r, r ≤ p → v.val r = some (w (m + r))
  other : ∀ J, J < m ∨ m + p < J → w J = 0

theorem jminVals_ok (h : bs.Is per p n t) {o : Option Nat} (ho : GoodOrder bs p o) {x : K} (h1 : t p ≤ x)
    (h2 : x ≤ t (p + n)) {w : Nat → K} (hw : Weights t p n o x w) :
    ∃ m v, jminVals bs (o.map (BitVec.ofNat 64)) x = .ok (v, BitVec.ofNat 64 m) ∧ Window (n + p) p w m v := by
  have hsm := h.small
  cases o with
  | none =>
    obtain ⟨m, v, k1, k2, k3, k4⟩ := h.eval x h1 h2 (Arr.uninit (p + 1)) rfl
    refine ⟨m, v, ?_, k4.size, by omega, fun r hr => by rw [k4.value r hr, hw], fun J hJ => by rw [hw, k4.other J hJ]⟩
    rw [Option.map_none, jminVals, h.degree, k3, Res.ok_bind]
    dsimp only
    rw [el1_eq, NUBS.uid1_el, Res.ok_bind]
  | some k =>
    obtain ⟨a1, a2, a3⟩ := ho k rfl
    obtain ⟨c, hc, hw⟩ := hw
    obtain ⟨m, d, k1, k2, k3⟩ := h.allDerivs x h1 h2 k a2 a3 (Arr2.uninit (p + 1) (k + 1)) rfl rfl
    obtain rfl : c = m + p := hc.unique h.mono k3.cell
    have hb : t (m + p + 1) ≤ t (p + n) := h.mono (by omega)
    have hval : ∀ r, r ≤ p → d.val r k = some (w (m + r)) := by
      intro r hr
      obtain ⟨P, hP, e⟩ := k3.value r k hr (le_refl _)
      rw [e, IsPiece.unique k3.cell.lt hb hP (isPiece_piece h.mono _ p (m + r) (m + p)), hw, basisDeriv]
    obtain ⟨v, e, hv1, hv2⟩ := forLoop_inv (f := fun i (v : Arr K) => (do
      let y ← d.rd i k
      v.wr i y)) (fun i v => v.size = p + 1 ∧ ∀ r, r < i → v.val r = some (w (m + r))) (p + 1) 0
      (Arr.uninit (p + 1)) ⟨rfl, fun r hr => by omega⟩ (by
        rintro i v hi hi' ⟨g1, g2⟩
        refine ⟨v.set i (w (m + i)), ?_, by rw [Arr.set_size, g1], fun r hr => ?_⟩
        · rw [Arr2.rd_ok (by rw [k3.rows, k3.cols]; omega) (hval i (by omega)), Res.ok_bind,
            Arr.wr_ok (by rw [g1]; omega)]
        · rw [Arr.set_val]
          split_ifs with hri
          · rw [show r = i by omega]
          · exact g2 r (by omega))
    have ek : (BitVec.ofNat 64 k).toNat = k := by rw [BitVec.toNat_ofNat]; omega
    refine ⟨m, v, ?_, hv1, by omega, fun r hr => hv2 r (by omega), fun J hJ => ?_⟩
    · rw [Option.map_some, jminVals, h.degree, ek, decide_eq_true ⟨a1, a2⟩, Res.guardAbort_true, Res.ok_bind, k2, Res.ok_bind]
      dsimp only
      rw [e, Res.ok_bind, el1_eq, NUBS.uid1_el, Res.ok_bind]
    · rw [hw, basisDeriv, piece_zero _ _ _ _ (by omega)]
      simp

/-- The chunk of the coefficients holds the numbers `c`. -/
def Holds (sizes : List Nat) (coef : Coefs K) (c : List Nat → K) : Prop :=
  ∀ idx, List.Forall₂ (· < ·) idx sizes → coef (idx.map (BitVec.ofNat 64)) = .ok (c idx)

theorem sum1_ok {size p m : Nat} {w : Nat → K} {v : Arr K} (hv : Window size p w m v) {coef : Coefs K}
    {c : List Nat → K} (hc : Holds [size] coef c) :
    sum1 p v (BitVec.ofNat 64 m) coef = .ok (tensor [(size, w)] c) := by
  have hin := hv.inside
  rw [sum1, forLoop_sum (g := fun i => w (m + i) * c [m + i]), zero_add]
  · simp only [tensor]
    rw [window_sum hv.inside hv.other fun J => c [J]]
  · intro i hi y
    have := hc [m + i] (.cons (by omega) .nil)
    rw [← BitVec.ofNat_add]
    simp only [List.map_cons, List.map_nil] at this
    rw [this, Res.ok_bind, Arr.rd_ok (by rw [hv.size]; omega) (hv.value i (by omega)), Res.ok_bind, mul_comm]

/-- Nested sums over the bounds of the loops. -/
def nsum : List Nat → (List Nat → K) → K
  | [], g => g []
  | b :: bs, g => ∑ i ∈ Finset.range b, nsum bs fun l => g (i :: l)

theorem forEachN_sum {f : List Nat → K → Res K} {g : List Nat → K} (bounds is : List Nat) (y : K)
    (h : ∀ l y, List.Forall₂ (· < ·) l bounds → f (is ++ l) y = .ok (y + g (is ++ l))) :
    forEachN f bounds is y = .ok (y + nsum bounds fun l => g (is ++ l)) := by
  induction bounds generalizing is y with
  | nil =>
    have := h [] y .nil
    rw [List.append_nil] at this
    rw [forEachN, this, nsum, List.append_nil]
  | cons b bounds ih =>
    rw [forEachN, forLoop_sum (g := fun i => nsum bounds fun l => g (is ++ i :: l))]
    · rfl
    · intro i hi y
      have e : ∀ l, is ++ [i] ++ l = is ++ i :: l := fun l => by simp
      rw [ih (is ++ [i]) y fun l y hl => by rw [e]; exact h _ _ (.cons hi hl)]
      simp only [e]

/-- One dimension: what `jminVals` has computed, the number of B-splines and the weights. -/
structure One1 (K : Type) where
  size : Nat
  p : Nat
  w : Nat → K
  m : Nat
  v : Arr K

def One1.Ok (d : One1 K) : Prop := Window d.size d.p d.w d.m d.v

theorem foldVals_ok (ds : List (One1 K)) (hne : ds ≠ []) (h : ∀ d ∈ ds, d.Ok) (l : List Nat)
    (hl : List.Forall₂ (· < ·) l (ds.map fun d => d.p + 1)) :
    foldVals (ds.map (·.v)) l = .ok (List.zipWith (fun (d : One1 K) i => d.w (d.m + i)) ds l).prod := by
  induction ds generalizing l with
  | nil => exact absurd rfl hne
  | cons d ds ih =>
    cases l with
    | nil => cases hl
    | cons i l =>
      obtain ⟨hi, hl⟩ := List.forall₂_cons.1 hl
      have hd : d.Ok := h d List.mem_cons_self
      dsimp only at hi
      have e : d.v.rd i = .ok (d.w (d.m + i)) := Arr.rd_ok (by rw [hd.size]; omega) (hd.value i (by omega))
      cases ds with
      | nil =>
        cases hl
        simp [foldVals, e]
      | cons d' ds =>
        cases l with
        | nil => cases hl
        | cons i' l =>
          have := ih (by simp) (fun x hx => h x (List.mem_cons_of_mem _ hx)) (i' :: l) hl
          simp only [List.map_cons] at this ⊢
          rw [foldVals, e, Res.ok_bind, this, Res.ok_bind]
          · simp
          · simp

theorem nsum_congr {bounds : List Nat} {g g' : List Nat → K}
    (h : ∀ l, List.Forall₂ (· < ·) l bounds → g l = g' l) : nsum bounds g = nsum bounds g' := by
  induction bounds generalizing g g' with
  | nil => exact h [] .nil
  | cons b bounds ih =>
    refine Finset.sum_congr rfl fun i hi => ih fun l hl => h _ (.cons (Finset.mem_range.1 hi) hl)

theorem nsum_mul (bounds : List Nat) (a : K) (g : List Nat → K) :
    nsum bounds (fun l => a * g l) = a * nsum bounds g := by
  induction bounds generalizing g with
  | nil => rfl
  | cons b bounds ih => simp only [nsum, ih, Finset.mul_sum]

theorem nsum_tensor (ds : List (One1 K)) (h : ∀ d ∈ ds, d.Ok) (c : List Nat → K) :
    nsum (ds.map fun d => d.p + 1) (fun l => c (List.zipWith (fun (d : One1 K) i => d.m + i) ds l) *
      (List.zipWith (fun (d : One1 K) i => d.w (d.m + i)) ds l).prod) = tensor (ds.map fun d => (d.size, d.w)) c := by
  induction ds generalizing c with
  | nil => simp [nsum, tensor]
  | cons d ds ih =>
    have hd : d.Ok := h d List.mem_cons_self
    simp only [List.map_cons, nsum, tensor, List.zipWith_cons_cons, List.prod_cons]
    rw [← window_sum hd.inside hd.other]
    refine Finset.sum_congr rfl fun i hi => ?_
    rw [← ih (fun x hx => h x (List.mem_cons_of_mem _ hx)) fun l => c ((d.m + i) :: l), ← nsum_mul]
    refine nsum_congr fun l _ => by ring

end DDC.Props
