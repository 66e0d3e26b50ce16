import Verif.Lemmas.BSpline
import Verif.Lemmas.Loop
import Verif.Model.BSplines

/-!
# The triangular scheme

The loops of `eval_basis`, `eval_deriv` and `eval_basis_and_n_derivs` compute the entries of a
triangle; with the right coefficients these are the values of the Cox–de Boor recursion.
-/

namespace DDC

set_option linter.unusedSectionVars false

variable {K : Type} [Field K] [LinearOrder K]

/-- Entry `r` of the line `j` of the triangle with coefficients `L` and `R` and top `s0`. -/
def tri (L R : Nat → Nat → K) (s0 : K) : Nat → Nat → K
  | 0, _ => s0
  | j + 1, r =>
    (if r = 0 then 0 else L j (r - 1) * tri L R s0 j (r - 1)) +
    (if r = j + 1 then 0 else R j r * tri L R s0 j r)

/-- The triangle of the Cox–de Boor recursion on the interval `c`. -/
theorem tri_bspline {t : Nat → K} (ht : Monotone t) {b x : K} {c : Nat} (hc : Spec.InCell t b x c)
    {L R : Nat → Nat → K} (s0 : K) (p : Nat) (hp : p ≤ c)
    (hL : ∀ j r, j < p → r ≤ j → L j r = (x - t (c - j + r)) / (t (c + r + 1) - t (c - j + r)))
    (hR : ∀ j r, j < p → r ≤ j → R j r = (t (c + r + 1) - x) / (t (c + r + 1) - t (c - j + r)))
    (j r : Nat) (hj : j ≤ p) (hr : r ≤ j) :
    tri L R s0 j r = s0 * Spec.bspline t b j (c - j + r) x := by
  induction j generalizing r with
  | zero =>
    obtain rfl : r = 0 := by omega
    rw [tri, Spec.bspline, if_pos (by simpa using hc), mul_one]
  | succ j ih =>
    rw [tri, Spec.bspline_step ht hc j (c - (j + 1)) r (by omega), mul_add]
    congr 1
    · split
      · rw [mul_zero]
      · rw [ih _ (by omega) (by omega), hL _ _ (by omega) (by omega)]
        have e1 : c - j + (r - 1) = c - (j + 1) + r := by omega
        have e2 : c + (r - 1) + 1 = c + r := by omega
        rw [e1, e2]; ring
    · split
      · rw [mul_zero]
      · rw [ih _ (by omega) (by omega), hR _ _ (by omega) (by omega)]
        have e1 : c - j + r = c - (j + 1) + r + 1 := by omega
        rw [e1]; ring

/-- `L` coefficients of the uniform scheme. -/
def uL (o : K) (j r : Nat) : K := (((j + 1 : Nat) : K) - (-o + ((r + 1 : Nat) : K))) / ((j + 1 : Nat) : K)

/-- `R` coefficients of the uniform scheme. -/
def uR (o : K) (j r : Nat) : K := (-o + ((r + 1 : Nat) : K)) / ((j + 1 : Nat) : K)

/-- The line `j` of the triangle is stored in the array. -/
def Line (a : Arr K) (n : Nat) (T : Nat → K) (j : Nat) : Prop :=
  a.size = n ∧ ∀ r, r ≤ j → a.val r = some (T r)

theorem UBS.basisOuter_ok (o s0 : K) (j : Nat) (a : Arr K) (n : Nat) (hn : j + 1 < n)
    (h : Line a n (tri (uL o) (uR o) s0 j) j) :
    ∃ a', UBS.basisOuter o (j + 1) a = .ok a' ∧ Line a' n (tri (uL o) (uR o) s0 (j + 1)) (j + 1) := by
  obtain ⟨s, e, h1, h2, h3, h4, h5⟩ := forLoop_inv
    (f := UBS.basisInner (j + 1))
    (fun r (s : Arr K × K × K) => s.1.size = n ∧
      (∀ i, i < r → s.1.val i = some (tri (uL o) (uR o) s0 (j + 1) i)) ∧
      (∀ i, r ≤ i → i ≤ j → s.1.val i = some (tri (uL o) (uR o) s0 j i)) ∧
      s.2.1 = -o + (r : K) ∧
      s.2.2 = if r = 0 then 0 else uL o j (r - 1) * tri (uL o) (uR o) s0 j (r - 1))
    (j + 1) 0 (a, -o, 0) ⟨h.1, fun i hi => absurd hi (by omega), fun i _ hi => h.2 i hi, by simp,
      by simp⟩
    (by
      rintro r ⟨a, xx, sv⟩ - hr ⟨h1, h2, h3, h4, h5⟩
      simp only at h1 h2 h3 h4 h5
      have hr' : r ≤ j := by omega
      have hrn : r < a.size := by omega
      simp only [UBS.basisInner, Arr.rd_ok hrn (h3 r (Nat.le_refl _) hr'), Res.ok_bind,
        Arr.wr_ok hrn, Res.pure_eq]
      refine ⟨_, rfl, by simpa using h1, ?_, ?_, ?_, ?_⟩
      · intro i hi
        rw [Arr.set_val]
        split
        · subst i
          congr 1
          rw [tri, if_neg (show r ≠ j + 1 by omega), h5, h4, uR]
          congr 1
          push_cast
          ring
        · exact h2 i (by omega)
      · intro i hi hi'
        rw [Arr.set_val, if_neg (by omega)]
        exact h3 i (by omega) hi'
      · rw [h4]; push_cast; ring
      · rw [if_neg (by omega), uL, h4]
        simp only [Nat.add_sub_cancel]
        push_cast
        ring)
  simp only [UBS.basisOuter, e, Res.ok_bind]
  rw [Arr.wr_ok (by omega)]
  refine ⟨_, rfl, by simpa using h1, fun r hr => ?_⟩
  rw [Arr.set_val]
  split
  · subst r
    congr 1
    rw [tri, if_neg (by omega), if_pos rfl, add_zero, h5, if_neg (by omega)]
    simp
  · exact h2 r (by omega)

/-- `eval_basis` and the first part of `eval_deriv`. -/
theorem UBS.triangle_ok (o s0 : K) (q : Nat) (a : Arr K) (n : Nat) (hn : q < n) (hs : a.size = n)
    (h0 : a.val 0 = some s0) :
    ∃ a', forLoop (UBS.basisOuter o) 1 q a = .ok a' ∧ Line a' n (tri (uL o) (uR o) s0 q) q := by
  obtain ⟨a', e, h⟩ := forLoop_inv (f := UBS.basisOuter o)
    (fun j a => Line a n (tri (uL o) (uR o) s0 (j - 1)) (j - 1)) q 1 a
    ⟨hs, fun r hr => by obtain rfl : r = 0 := by omega
                        exact h0⟩
    (fun j a hj hj' h => by
      obtain ⟨j, rfl⟩ : ∃ k, j = k + 1 := ⟨j - 1, by omega⟩
      simp only [Nat.add_sub_cancel] at h ⊢
      exact UBS.basisOuter_ok o s0 j a n (by omega) h)
  refine ⟨a', e, ?_⟩
  simpa using h

end DDC
