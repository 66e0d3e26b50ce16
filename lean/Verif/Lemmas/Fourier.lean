import Verif.Spec.Fourier
import Mathlib.Algebra.Field.GeomSum
import Mathlib.Tactic.Ring
import Mathlib.Tactic.FieldSimp

/-! # Inversion and symmetry of the discrete Fourier transform -/

namespace DDC.Fourier

open DDC DDC.Spec Finset
open scoped ComplexConjugate

theorem boxSum_congr {ns : List Nat} {f g : List Nat → ℂ} (h : ∀ xs, Within ns xs → f xs = g xs) :
    boxSum ns f = boxSum ns g := by
  induction ns generalizing f g with
  | nil => exact h [] List.Forall₂.nil
  | cons n ns ih =>
    exact sum_congr rfl fun i hi => ih fun xs hx => h _ (List.Forall₂.cons (mem_range.1 hi) hx)

theorem mul_boxSum (ns : List Nat) (c : ℂ) (f : List Nat → ℂ) :
    c * boxSum ns f = boxSum ns (fun xs => c * f xs) := by
  induction ns generalizing f with
  | nil => rfl
  | cons n ns ih => simp only [boxSum, mul_sum, ih]

theorem boxSum_sum (ns : List Nat) (m : Nat) (f : Nat → List Nat → ℂ) :
    boxSum ns (fun xs => ∑ j ∈ range m, f j xs) = ∑ j ∈ range m, boxSum ns (f j) := by
  induction ns generalizing f with
  | nil => rfl
  | cons n ns ih =>
    simp only [boxSum]
    rw [sum_comm]
    exact sum_congr rfl fun i _ => ih _

theorem conj_boxSum (ns : List Nat) (f : List Nat → ℂ) :
    conj (boxSum ns f) = boxSum ns (fun xs => conj (f xs)) := by
  induction ns generalizing f with
  | nil => rfl
  | cons n ns ih => simp only [boxSum, map_sum, ih]

theorem dft_congr {s : ℝ} {ns ks : List Nat} {f g : List Nat → ℂ}
    (h : ∀ xs, Within ns xs → f xs = g xs) : dft s ns f ks = dft s ns g ks :=
  boxSum_congr fun xs hx => by rw [h xs hx]

theorem dft_mul (s : ℝ) (ns ks : List Nat) (c : ℂ) (f : List Nat → ℂ) :
    dft s ns (fun xs => c * f xs) ks = c * dft s ns f ks := by
  rw [dft, dft, mul_boxSum]
  exact boxSum_congr fun xs _ => by ring

theorem dft_sum (s : ℝ) (ns ks : List Nat) (m : Nat) (c : Nat → ℂ) (f : Nat → List Nat → ℂ) :
    dft s ns (fun xs => ∑ j ∈ range m, c j * f j xs) ks = ∑ j ∈ range m, c j * dft s ns (f j) ks := by
  simp only [dft, mul_boxSum]
  rw [← boxSum_sum]
  exact boxSum_congr fun xs _ => by
    rw [mul_sum]
    exact sum_congr rfl fun j _ => by ring

/-- One dimension of the transform. -/
noncomputable def root (s : ℝ) (n k x : Nat) : ℂ :=
  Complex.exp ((s * (2 * Real.pi * k * x / n) : ℝ) * Complex.I)

theorem dft_cons (s : ℝ) (n : Nat) (ns : List Nat) (f : List Nat → ℂ) (k : Nat) (ks : List Nat) :
    dft s (n :: ns) f (k :: ks) =
      ∑ x ∈ range n, root s n k x * dft s ns (fun xs => f (x :: xs)) ks := by
  simp only [dft, boxSum, mul_boxSum]
  exact sum_congr rfl fun x _ => boxSum_congr fun xs _ => by rw [wave, root]; ring

theorem sum_roots {s : ℝ} (hs : s = 1 ∨ s = -1) {n x y : Nat} (hx : x < n) (hy : y < n) :
    ∑ k ∈ range n, root (-s) n x k * root s n k y = if x = y then (n : ℂ) else 0 := by
  have hn : (n : ℝ) ≠ 0 := by exact_mod_cast (by omega : n ≠ 0)
  have hpi := Real.pi_ne_zero
  set z : ℂ := Complex.exp ((s * (2 * Real.pi * ((y : ℝ) - x) / n) : ℝ) * Complex.I) with hz
  have h1 : ∀ k, root (-s) n x k * root s n k y = z ^ k := by
    intro k
    rw [root, root, ← Complex.exp_add, hz, ← Complex.exp_nat_mul]
    congr 1
    push_cast
    ring
  rw [sum_congr rfl fun k _ => h1 k]
  by_cases hxy : x = y
  · subst hxy
    have : z = 1 := by rw [hz]; simp
    simp [this]
  · rw [if_neg hxy]
    have hzn : z ^ n = 1 := by
      rw [hz, ← Complex.exp_nat_mul, Complex.exp_eq_one_iff]
      rcases hs with rfl | rfl
      · refine ⟨(y : ℤ) - x, ?_⟩
        have : (n : ℂ) ≠ 0 := by exact_mod_cast hn
        push_cast
        field_simp
      · refine ⟨(x : ℤ) - y, ?_⟩
        have : (n : ℂ) ≠ 0 := by exact_mod_cast hn
        push_cast
        field_simp
        ring
    have hz1 : z ≠ 1 := by
      rw [hz, Ne, Complex.exp_eq_one_iff]
      rintro ⟨m, hm⟩
      have h2 : (s * (2 * Real.pi * ((y : ℝ) - x) / n) : ℝ) = m * (2 * Real.pi) := by
        have : ((s * (2 * Real.pi * ((y : ℝ) - x) / n) : ℝ) : ℂ) = ((m * (2 * Real.pi) : ℝ) : ℂ) := by
          apply mul_right_cancel₀ Complex.I_ne_zero
          rw [hm]
          push_cast
          ring
        exact_mod_cast this
      have h3 : s * ((y : ℝ) - x) = m * n := by
        field_simp at h2
        linarith
      have h4 : (y : ℤ) - x = m * n ∨ (x : ℤ) - y = m * n := by
        rcases hs with rfl | rfl
        · left; have : ((y : ℝ) - x) = m * n := by linarith
          exact_mod_cast this
        · right; have : ((x : ℝ) - y) = m * n := by linarith
          exact_mod_cast this
      have h5 : m = 0 := by
        by_contra hm0
        have : (n : ℤ) ≤ |m * n| := by
          rw [abs_mul, Nat.abs_cast]
          exact le_mul_of_one_le_left (by positivity) (Int.one_le_abs hm0)
        rcases h4 with h | h <;> rw [← h] at this <;> rw [le_abs] at this <;> omega
      subst h5
      rcases h4 with h | h <;> · simp at h; omega
    rw [geom_sum_eq hz1, hzn]
    simp

/-- The backward transform of the forward transform is the data times their number. -/
theorem dft_dft {s : ℝ} (hs : s = 1 ∨ s = -1) (ns : List Nat) (f : List Nat → ℂ) {xs : List Nat}
    (hx : Within ns xs) : dft (-s) ns (dft s ns f) xs = (ns.prod : ℂ) * f xs := by
  induction ns generalizing f xs with
  | nil => cases hx; simp [dft, boxSum, wave]
  | cons n ns ih =>
    cases hx with
    | cons hxn hxs =>
      rename_i x xs
      rw [dft_cons]
      have h1 : ∀ k, dft (-s) ns (fun ks => dft s (n :: ns) f (k :: ks)) xs =
          ∑ y ∈ range n, root s n k y * ((ns.prod : ℂ) * f (y :: xs)) := by
        intro k
        have : (fun ks => dft s (n :: ns) f (k :: ks)) =
            fun ks => ∑ y ∈ range n, root s n k y * dft s ns (fun xs => f (y :: xs)) ks :=
          funext fun ks => dft_cons s n ns f k ks
        rw [this, dft_sum]
        exact sum_congr rfl fun y _ => by rw [ih _ hxs]
      rw [sum_congr rfl fun k _ => by rw [h1 k, mul_sum], sum_comm]
      have h2 : ∀ y ∈ range n, ∑ k ∈ range n, root (-s) n x k * (root s n k y *
          ((ns.prod : ℂ) * f (y :: xs))) =
          if x = y then (n : ℂ) * ((ns.prod : ℂ) * f (y :: xs)) else 0 := by
        intro y hy
        have := sum_roots hs hxn (mem_range.1 hy)
        rw [sum_congr rfl fun k _ => (mul_assoc _ _ _).symm, ← sum_mul, this]
        split_ifs <;> simp
      rw [sum_congr rfl h2, sum_ite_eq, if_pos (mem_range.2 hxn), List.prod_cons]
      push_cast
      ring

theorem within_neg {ns ks : List Nat} (h : Within ns ks) : Within ns (neg ns ks) := by
  induction h with
  | nil => exact List.Forall₂.nil
  | cons h _ ih => exact List.Forall₂.cons (Nat.mod_lt _ (by omega)) ih

theorem neg_neg {ns ks : List Nat} (h : Within ns ks) : neg ns (neg ns ks) = ks := by
  induction h with
  | nil => rfl
  | @cons n k ns ks h _ ih =>
    simp only [neg, ih, List.cons.injEq, and_true]
    by_cases hk : k = 0
    · subst hk; simp
    · rw [Nat.mod_eq_of_lt (by omega : n - k < n), Nat.mod_eq_of_lt (by omega)]; omega

theorem conj_root (s : ℝ) (n k x : Nat) : conj (root s n k x) = root (-s) n k x := by
  rw [root, root, ← Complex.exp_conj]
  congr 1
  rw [map_mul, Complex.conj_I, Complex.conj_ofReal]
  push_cast
  ring

theorem root_neg {s : ℝ} (hs : s = 1 ∨ s = -1) {n k : Nat} (hk : k < n) (x : Nat) :
    root s n ((n - k) % n) x = conj (root s n k x) := by
  rw [conj_root]
  by_cases h0 : k = 0
  · subst h0
    simp [root]
  · rw [Nat.mod_eq_of_lt (by omega), root, root, Complex.exp_eq_exp_iff_exists_int]
    have hn : (n : ℂ) ≠ 0 := by exact_mod_cast (by omega : n ≠ 0)
    have hc : ((n - k : Nat) : ℂ) = (n : ℂ) - k := by
      rw [Nat.cast_sub (by omega)]
    rcases hs with rfl | rfl
    · refine ⟨x, ?_⟩
      push_cast [hc]
      field_simp
      ring
    · refine ⟨-x, ?_⟩
      push_cast [hc]
      field_simp
      ring

/-- Conjugation reverses the indices of a transform. -/
theorem dft_neg {s : ℝ} (hs : s = 1 ∨ s = -1) (ns : List Nat) (f : List Nat → ℂ) {ks : List Nat}
    (h : Within ns ks) : dft s ns f (neg ns ks) = conj (dft s ns (fun xs => conj (f xs)) ks) := by
  induction h generalizing f with
  | nil => simp [dft, boxSum, wave]
  | @cons n k ns ks hk _ ih =>
    rw [neg, dft_cons, dft_cons, map_sum]
    exact sum_congr rfl fun x _ => by rw [map_mul, ih, root_neg hs hk]

theorem hermitian_dft {s : ℝ} (hs : s = 1 ∨ s = -1) (ns : List Nat) (f : List Nat → ℝ) :
    Hermitian ns (dft s ns (fun xs => (f xs : ℂ))) := by
  intro ks h
  rw [dft_neg hs ns _ h]
  simp

theorem hermitian_mul {ns : List Nat} {X : List Nat → ℂ} (h : Hermitian ns X) (c : ℝ) :
    Hermitian ns (fun ks => (c : ℂ) * X ks) := by
  intro ks hk
  simp only
  rw [h ks hk, map_mul, Complex.conj_ofReal]

/-! ### Symmetric sums -/

theorem sum_mod_neg (n : Nat) (g : Nat → ℂ) :
    ∑ i ∈ range n, g ((n - i) % n) = ∑ i ∈ range n, g i := by
  refine sum_nbij' (fun i => (n - i) % n) (fun i => (n - i) % n) ?_ ?_ ?_ ?_ ?_
  · intro i hi; rw [mem_range] at *; exact Nat.mod_lt _ (by omega)
  · intro i hi; rw [mem_range] at *; exact Nat.mod_lt _ (by omega)
  · intro i hi
    have h : i < n := mem_range.1 hi
    have := neg_neg (List.Forall₂.cons h List.Forall₂.nil : Within [n] [i])
    simpa [neg] using this
  · intro i hi
    have h : i < n := mem_range.1 hi
    have := neg_neg (List.Forall₂.cons h List.Forall₂.nil : Within [n] [i])
    simpa [neg] using this
  · intro i _; rfl

theorem boxSum_neg (ns : List Nat) (f : List Nat → ℂ) :
    boxSum ns (fun xs => f (neg ns xs)) = boxSum ns f := by
  induction ns generalizing f with
  | nil => rfl
  | cons n ns ih =>
    simp only [boxSum, neg]
    rw [← sum_mod_neg n (fun i => boxSum ns (fun is => f (i :: is)))]
    exact sum_congr rfl fun i _ => ih (fun is => f ((n - i) % n :: is))

theorem wave_neg {s : ℝ} (hs : s = 1 ∨ s = -1) {ns ks xs : List Nat} (hk : Within ns ks)
    (hx : Within ns xs) : wave s ns ks (neg ns xs) = conj (wave s ns ks xs) := by
  induction hk generalizing xs with
  | nil => cases hx; simp [wave, neg]
  | @cons n k ns ks h _ ih =>
    cases hx with
    | cons hx1 hx2 =>
      rename_i x xs
      simp only [neg, wave, map_mul]
      rw [ih hx2]
      congr 1
      have h1 := root_neg hs hx1 k
      have h2 : ∀ a b : Nat, root s n a b = root s n b a := by
        intro a b; rw [root, root]; congr 2; push_cast; ring
      rw [h2, h2 x k] at h1
      exact h1

/-- The transform of a conjugate symmetric array is real. -/
theorem dft_hermitian {s : ℝ} (hs : s = 1 ∨ s = -1) {ns : List Nat} {X : List Nat → ℂ}
    (h : Hermitian ns X) {xs : List Nat} (hx : Within ns xs) :
    conj (dft s ns X xs) = dft s ns X xs := by
  rw [dft, conj_boxSum, ← boxSum_neg ns (fun ks => wave s ns xs ks * X ks)]
  refine boxSum_congr fun ks hk => ?_
  rw [map_mul, h ks hk, wave_neg hs hx hk]

/-! ### The non-redundant half -/

theorem half_or_neg {ns ks : List Nat} (h : Within ns ks) :
    Within (halfShape ns) ks ∨ Within (halfShape ns) (neg ns ks) := by
  induction h with
  | nil => left; exact List.Forall₂.nil
  | @cons n k ns ks hk htl ih =>
    cases htl with
    | nil =>
      by_cases hh : k < n / 2 + 1
      · left; exact List.Forall₂.cons hh List.Forall₂.nil
      · right
        refine List.Forall₂.cons ?_ List.Forall₂.nil
        rw [Nat.mod_eq_of_lt (by omega)]; omega
    | cons h1 h2 =>
      rcases ih with ih | ih
      · left; exact List.Forall₂.cons hk ih
      · right; exact List.Forall₂.cons (Nat.mod_lt _ (by omega)) ih

theorem within_of_half {ns ks : List Nat} (hp : ∀ n ∈ ns, 0 < n) (h : Within (halfShape ns) ks) :
    Within ns ks := by
  induction ns generalizing ks with
  | nil => exact h
  | cons n ns ih =>
    cases ns with
    | nil =>
      cases h with
      | cons h1 h3 =>
        refine List.Forall₂.cons ?_ h3
        have := hp n (by simp); omega
    | cons m ns =>
      cases h with
      | cons h1 h3 =>
        exact List.Forall₂.cons h1 (ih (fun n hn => hp n (List.mem_cons_of_mem _ hn)) h3)

end DDC.Fourier
