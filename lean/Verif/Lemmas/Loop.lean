import Verif.Model.Loop

/-!
# Reasoning about loops and arrays
-/

namespace DDC

/-- Invariant rule: if every iteration succeeds and preserves `P`, so does the loop. -/
theorem forLoop_inv {σ : Type} {f : Nat → σ → Res σ} (P : Nat → σ → Prop) (n lo : Nat) (s : σ)
    (h0 : P lo s)
    (h : ∀ i s, lo ≤ i → i < lo + n → P i s → ∃ s', f i s = .ok s' ∧ P (i + 1) s') :
    ∃ s', forLoop f lo n s = .ok s' ∧ P (lo + n) s' := by
  induction n generalizing lo s with
  | zero => exact ⟨s, rfl, h0⟩
  | succ n ih =>
    obtain ⟨s1, e1, h1⟩ := h lo s (Nat.le_refl _) (by omega) h0
    obtain ⟨s2, e2, h2⟩ := ih (lo + 1) s1 h1 (fun i s hi hi' => h i s (by omega) (by omega))
    refine ⟨s2, ?_, ?_⟩
    · simp only [forLoop, e1, Res.ok_bind, e2]
    · have : lo + (n + 1) = lo + 1 + n := by omega
      rw [this]; exact h2

/-- Splitting off the last iteration. -/
theorem forLoop_snoc {σ : Type} (f : Nat → σ → Res σ) (n lo : Nat) (s : σ) :
    forLoop f lo (n + 1) s = (forLoop f lo n s >>= fun s => f (lo + n) s) := by
  induction n generalizing lo s with
  | zero => simp only [forLoop, Res.ok_bind, Nat.add_zero]; cases f lo s <;> rfl
  | succ n ih =>
    rw [forLoop]
    have : (forLoop f lo (n + 1) s : Res σ) = (f lo s >>= fun s => forLoop f (lo + 1) n s) := rfl
    rw [this]
    cases f lo s with
    | ok a =>
      simp only [Res.ok_bind]
      rw [ih]
      have : lo + 1 + n = lo + (n + 1) := by omega
      rw [this]
    | _ => rfl

namespace Arr

variable {K : Type}

/-- The array after a write. -/
def set (a : Arr K) (i : Nat) (v : K) : Arr K := ⟨a.size, fun j => if j = i then some v else a.val j⟩

@[simp] theorem set_size (a : Arr K) (i : Nat) (v : K) : (a.set i v).size = a.size := rfl

theorem set_val (a : Arr K) (i j : Nat) (v : K) :
    (a.set i v).val j = if j = i then some v else a.val j := rfl

theorem wr_ok {a : Arr K} {i : Nat} (h : i < a.size) (v : K) : a.wr i v = .ok (a.set i v) := by
  rw [wr, if_pos h]; rfl

theorem rd_ok {a : Arr K} {i : Nat} (h : i < a.size) {v : K} (hv : a.val i = some v) :
    a.rd i = .ok v := by
  rw [rd, if_pos h, hv]

/-- The entries of an array all of which are initialised. -/
theorem toList_ok {a : Arr K} (f : Nat → K) (h : ∀ i, i < a.size → a.val i = some (f i)) :
    a.toList = .ok ((List.range a.size).map f) := by
  have key : ∀ l : List Nat, (∀ i ∈ l, i < a.size) → l.mapM a.rd = .ok (l.map f) := by
    intro l hl
    induction l with
    | nil => rfl
    | cons x l ih =>
      rw [List.mapM_cons, rd_ok (hl x (by simp)) (h x (hl x (by simp))), Res.ok_bind,
        ih (fun i hi => hl i (by simp [hi]))]
      rfl
  exact key _ (fun i hi => List.mem_range.1 hi)

end Arr

namespace Arr2

variable {K : Type}

/-- The array after a write. -/
def set (a : Arr2 K) (i j : Int) (v : K) : Arr2 K :=
  ⟨a.rows, a.cols, fun k l => if k = i ∧ l = j then some v else a.val k l⟩

@[simp] theorem set_rows (a : Arr2 K) (i j : Int) (v : K) : (a.set i j v).rows = a.rows := rfl
@[simp] theorem set_cols (a : Arr2 K) (i j : Int) (v : K) : (a.set i j v).cols = a.cols := rfl

theorem set_val (a : Arr2 K) (i j k l : Int) (v : K) :
    (a.set i j v).val k l = if k = i ∧ l = j then some v else a.val k l := rfl

theorem wr_ok {a : Arr2 K} {i j : Int} (h : 0 ≤ i ∧ i < a.rows ∧ 0 ≤ j ∧ j < a.cols) (v : K) :
    a.wr i j v = .ok (a.set i j v) := by
  rw [wr, inb, if_pos (by simpa using h)]; rfl

theorem rd_ok {a : Arr2 K} {i j : Int} (h : 0 ≤ i ∧ i < a.rows ∧ 0 ≤ j ∧ j < a.cols) {v : K}
    (hv : a.val i j = some v) : a.rd i j = .ok v := by
  rw [rd, inb, if_pos (by simpa using h), hv]

end Arr2

end DDC
