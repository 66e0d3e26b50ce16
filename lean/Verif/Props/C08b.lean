import Verif.Lemmas.StridedOps
import Verif.Lemmas.Sparse
import Mathlib.Data.List.Sort

/-!
# C08  Domain equality coincides with equality of the sets of points (strided, sparse)

The set of points of a strided domain is given by `InGrid` (a product of arithmetic
progressions), that of a sparse domain by `InSparse` (a product of lists of indices).
-/

namespace DDC.Props

open Tup Spec

variable {τ : Type} [DecidableEq τ] {α : Type}

/-- The element with coordinates `f`, except along `q` where it is `i`. -/
private def point (x : Tup τ α) (f : α → U64) (q : τ) (i : U64) : Elem τ :=
  x.map (fun p => (p.1, if p.1 = q then i else f p.2))

private theorem tags_point (x : Tup τ α) (f : α → U64) (q : τ) (i : U64) : tags (point x f q i) = tags x := by
  simp [point, tags, Function.comp_def]

private theorem get_point {x : Tup τ α} {f : α → U64} {q : τ} {i : U64} {r : τ} {a : α}
    (h : get r x = .ok a) : get r (point x f q i) = .ok (if r = q then i else f a) := by
  induction x with
  | nil => simp at h
  | cons p x ih =>
    obtain ⟨t, v⟩ := p
    simp only [get_cons] at h
    simp only [point, List.map_cons, get_cons]
    split at h
    · rename_i ht
      injection h with h
      subst h; subst ht
      simp
    · rename_i ht
      rw [if_neg ht]
      exact ih h

/-! ## Strided domains -/

section strided
open SDom

/-- Two progressions with the same terms have the same first term and length, and the
same step if there are two terms. -/
private theorem progression_eq {b n s b' n' s' : Int} (hn : 1 ≤ n) (hn' : 1 ≤ n') (hs : 1 ≤ s) (hs' : 1 ≤ s')
    (h1 : ∀ k, 0 ≤ k → k < n → ∃ k', 0 ≤ k' ∧ k' < n' ∧ b + k * s = b' + k' * s')
    (h2 : ∀ k, 0 ≤ k → k < n' → ∃ k', 0 ≤ k' ∧ k' < n ∧ b' + k * s' = b + k' * s) :
    b = b' ∧ n = n' ∧ (2 ≤ n → s = s') := by
  have hb : b = b' := by
    obtain ⟨k, k1, k2, k3⟩ := h1 0 (by omega) (by omega)
    obtain ⟨l, l1, l2, l3⟩ := h2 0 (by omega) (by omega)
    have := Int.mul_nonneg k1 (show 0 ≤ s' by omega)
    have := Int.mul_nonneg l1 (show 0 ≤ s by omega)
    omega
  subst hb
  have half : ∀ {n s n' s' : Int}, 2 ≤ n → 1 ≤ s → 1 ≤ s' →
      (∀ k, 0 ≤ k → k < n → ∃ k', 0 ≤ k' ∧ k' < n' ∧ b + k * s = b + k' * s') → 2 ≤ n' ∧ s' ≤ s := by
    intro n s n' s' hn hs hs' h
    obtain ⟨k, k1, k2, k3⟩ := h 1 (by omega) (by omega)
    rcases Int.lt_or_le 0 k with hk | hk
    · have := Int.mul_le_mul_of_nonneg_right (show 1 ≤ k by omega) (show 0 ≤ s' by omega)
      exact ⟨by omega, by omega⟩
    · have : k = 0 := by omega
      subst this
      omega
  by_cases hn2 : 2 ≤ n
  · obtain ⟨a1, a2⟩ := half hn2 hs hs' h1
    obtain ⟨b1, b2⟩ := half a1 hs' hs h2
    have hss : s = s' := by omega
    subst hss
    obtain ⟨k, k1, k2, k3⟩ := h1 (n - 1) (by omega) (by omega)
    obtain ⟨l, l1, l2, l3⟩ := h2 (n' - 1) (by omega) (by omega)
    have e1 := Int.eq_of_mul_eq_mul_right (a := s) (b := n - 1) (c := k) (by omega) (by omega)
    have e2 := Int.eq_of_mul_eq_mul_right (a := s) (b := n' - 1) (c := l) (by omega) (by omega)
    exact ⟨rfl, by omega, fun _ => rfl⟩
  · by_cases hn2' : 2 ≤ n'
    · have := half hn2' hs' hs h2
      omega
    · exact ⟨rfl, by omega, fun h => absurd h hn2⟩

/-- Same points along one dimension, for non-empty strided domains with the same points. -/
private theorem axis_le {a b : SDom τ} (ha : SValid a) (hs : SameTags a b)
    (hne : ∀ q ∈ tags a, 1 ≤ count q a)
    (h : ∀ e : Elem τ, SameTags e a → (InGrid a e → InGrid b e)) :
    ∀ q ∈ tags a, ∀ k, 0 ≤ k → k < count q a →
      ∃ k', 0 ≤ k' ∧ k' < count q b ∧ first q a + k * step q a = first q b + k' * step q b := by
  intro q hq k hk1 hk2
  obtain ⟨⟨b0, n, s⟩, hg⟩ := get_ok_iff_mem_tags.2 hq
  obtain ⟨v1, v2, v3, v4⟩ := svalid_get ha hg
  rw [count_ok hg] at hk2
  have hlt := Int.mul_le_mul_of_nonneg_right (Int.le_of_lt hk2) (show 0 ≤ s.toInt by omega)
  have hnn := Int.mul_nonneg hk1 (show 0 ≤ s.toInt by omega)
  have hr : ((BitVec.ofInt 64 (b0.toNat + k * s.toInt) : U64).toNat : Int) = b0.toNat + k * s.toInt := by
    rw [BitVec.toNat_ofInt]
    omega
  let e := point a (fun p => p.1) q (BitVec.ofInt 64 (b0.toNat + k * s.toInt))
  have he : tags e = tags a := tags_point _ _ _ _
  have hin : InGrid a e := by
    intro r hr'
    obtain ⟨⟨c, m, t⟩, hg'⟩ := get_ok_iff_mem_tags.2 hr'
    rw [onGrid_ok hg', idx_ok (get_point hg')]
    by_cases hrq : r = q
    · subst hrq
      rw [hg] at hg'
      injection hg' with hg'
      obtain ⟨rfl, rfl, rfl⟩ : b0 = c ∧ n = m ∧ s = t := by simpa using hg'
      rw [if_pos rfl, hr]
      exact ⟨k, hk1, hk2, rfl⟩
    · rw [if_neg hrq]
      refine ⟨0, by omega, ?_, by simp⟩
      have := hne r hr'
      rw [count_ok hg'] at this
      omega
  have := h e (by rw [SameTags, he]) hin q (hs.mem_iff.1 hq)
  rw [idx_ok (get_point hg), if_pos rfl, hr] at this
  obtain ⟨k', h1, h2, h3⟩ := this
  exact ⟨k', h1, h2, by rw [first_ok hg, step_ok hg]; exact h3⟩

/-- Exact meaning of `a == b` on strided domains over the same tags in any order:
same points and, unless the domain is empty, same strides.  Missing with respect to
the claim: `==` distinguishes two domains with the same points when an extent is 1
and the strides differ (see `C08_strided_eq_stride`). -/
theorem C08_strided_eq_partial (a b : SDom τ) (ha : SValid a) (hb : SValid b) (hs : SameTags a b)
    (ca : scard a < 2 ^ 64) (cb : scard b < 2 ^ 64) :
    ∃ r, SDom.eq a b = .ok r ∧
      (r = true ↔ (∀ e : Elem τ, SameTags e a → (InGrid a e ↔ InGrid b e)) ∧
        ((∃ q ∈ tags a, count q a = 0) ∨ ∀ q ∈ tags a, step q a = step q b)) := by
  obtain ⟨c1, p1, p2⟩ := eqFold_ok (x := SDom.front a) (y := SDom.front b) (by rw [tags_front]; exact ha.1)
    (by intro q hq; rw [tags_front] at *; exact hs.mem_iff.1 hq)
  obtain ⟨c2, r1, r2⟩ := eqFold_ok (x := SDom.extents a) (y := SDom.extents b) (by rw [tags_extents]; exact ha.1)
    (by intro q hq; rw [tags_extents] at *; exact hs.mem_iff.1 hq)
  obtain ⟨c3, s1, s2⟩ := eqFold_ok (x := SDom.strides a) (y := SDom.strides b) (by rw [tags_strides]; exact ha.1)
    (by intro q hq; rw [tags_strides] at *; exact hs.mem_iff.1 hq)
  obtain ⟨ea, ea1, ea2⟩ := empty_ok a ha ca
  obtain ⟨eb, eb1, eb2⟩ := empty_ok b hb cb
  have hrank : (!a.isEmpty || b.isEmpty) = true := by
    have h := hs.length_eq
    rw [length_tags, length_tags] at h
    cases a <;> cases b <;> simp_all
  have e1 : SDom.eq a b = .ok (if (ea && eb) = true then true else (c1 && c2 && c3)) := by
    simp only [SDom.eq, Elem.eq, Vect.eq, p1, r1, s1, ea1, eb1, hrank, Res.guardIll_true,
      Res.ok_bind, Res.pure_eq]
    split <;> rfl
  refine ⟨_, e1, ?_⟩
  have hmem : (c1 && c2 && c3) = true ↔ ∀ q ∈ tags a, first q a = first q b ∧ count q a = count q b ∧
      step q a = step q b := by
    rw [Bool.and_eq_true, Bool.and_eq_true, p2, r2, s2, tags_front, tags_extents, tags_strides]
    constructor
    · rintro ⟨⟨h1, h2⟩, h3⟩ q hq
      obtain ⟨⟨x, y, z⟩, hx⟩ := get_ok_iff_mem_tags.2 hq
      obtain ⟨⟨x', y', z'⟩, hx'⟩ := get_ok_iff_mem_tags.2 (hs.mem_iff.1 hq)
      have k1 := h1 q hq; have k2 := h2 q hq; have k3 := h3 q hq
      rw [get_front_ok hx, get_front_ok hx'] at k1
      rw [get_extents_ok hx, get_extents_ok hx'] at k2
      rw [get_strides_ok hx, get_strides_ok hx'] at k3
      injection k1 with k1; injection k2 with k2; injection k3 with k3
      rw [first_ok hx, first_ok hx', count_ok hx, count_ok hx', step_ok hx, step_ok hx', k1, k2, k3]
      exact ⟨rfl, rfl, rfl⟩
    · intro h
      have key : ∀ q ∈ tags a, get q a = get q b := by
        intro q hq
        obtain ⟨⟨x, y, z⟩, hx⟩ := get_ok_iff_mem_tags.2 hq
        obtain ⟨⟨x', y', z'⟩, hx'⟩ := get_ok_iff_mem_tags.2 (hs.mem_iff.1 hq)
        have := h q hq
        rw [first_ok hx, first_ok hx', count_ok hx, count_ok hx', step_ok hx, step_ok hx'] at this
        rw [hx, hx', BitVec.eq_of_toNat_eq this.1, BitVec.eq_of_toInt_eq this.2.1, BitVec.eq_of_toInt_eq this.2.2]
      refine ⟨⟨?_, ?_⟩, ?_⟩ <;> intro q hq <;>
        obtain ⟨⟨x, y, z⟩, hx⟩ := get_ok_iff_mem_tags.2 hq <;> have hx' := key q hq ▸ hx
      · rw [get_front_ok hx, get_front_ok hx']
      · rw [get_extents_ok hx, get_extents_ok hx']
      · rw [get_strides_ok hx, get_strides_ok hx']
  have hnone : ∀ d : SDom τ, (∃ q ∈ tags d, count q d = 0) → ∀ e, ¬ InGrid d e := by
    rintro d ⟨q, hq, h0⟩ e he
    obtain ⟨k, k1, k2, _⟩ := he q hq
    omega
  have hsome : ∀ d : SDom τ, SValid d → (¬ ∃ q ∈ tags d, count q d = 0) → InGrid d (SDom.front d) := by
    intro d hd h q hq
    obtain ⟨⟨x, y, z⟩, hx⟩ := get_ok_iff_mem_tags.2 hq
    refine ⟨0, by omega, ?_, ?_⟩
    · have := (hd.2 q hq).1
      have : count q d ≠ 0 := fun h0 => h ⟨q, hq, h0⟩
      omega
    · rw [idx_ok (get_front_ok hx), first_ok hx]; simp
  by_cases hboth : ea = true ∧ eb = true
  · rw [if_pos (by simp [hboth])]
    simp only [true_iff]
    exact ⟨fun e _ => ⟨fun h => absurd h (hnone a (ea2.1 hboth.1) e), fun h => absurd h (hnone b (eb2.1 hboth.2) e)⟩,
      .inl (ea2.1 hboth.1)⟩
  rw [if_neg (by simpa using hboth), hmem]
  constructor
  · intro h
    refine ⟨fun e he => ?_, .inr fun q hq => (h q hq).2.2⟩
    constructor
    · intro hi q hq
      obtain ⟨k, k1, k2, k3⟩ := hi q (hs.mem_iff.2 hq)
      have := h q (hs.mem_iff.2 hq)
      exact ⟨k, k1, by omega, by rw [k3, this.1, this.2.2]⟩
    · intro hi q hq
      obtain ⟨k, k1, k2, k3⟩ := hi q (hs.mem_iff.1 hq)
      have := h q hq
      exact ⟨k, k1, by omega, by rw [k3, this.1, this.2.2]⟩
  · rintro ⟨h1, h2⟩
    have nea : ¬ ∃ q ∈ tags a, count q a = 0 := by
      intro h0
      by_cases hb0 : ∃ q ∈ tags b, count q b = 0
      · exact hboth ⟨ea2.2 h0, eb2.2 hb0⟩
      · refine hnone a h0 _ ((h1 (SDom.front b) ?_).2 (hsome b hb hb0))
        rw [SameTags, tags_front]; exact hs.symm
    have neb : ¬ ∃ q ∈ tags b, count q b = 0 := by
      intro h0
      refine hnone b h0 _ ((h1 (SDom.front a) ?_).1 (hsome a ha nea))
      rw [SameTags, tags_front]
    have pa : ∀ q ∈ tags a, 1 ≤ count q a := by
      intro q hq
      have := (ha.2 q hq).1
      have : count q a ≠ 0 := fun h0 => nea ⟨q, hq, h0⟩
      omega
    have pb : ∀ q ∈ tags b, 1 ≤ count q b := by
      intro q hq
      have := (hb.2 q hq).1
      have : count q b ≠ 0 := fun h0 => neb ⟨q, hq, h0⟩
      omega
    intro q hq
    have hq' := hs.mem_iff.1 hq
    have l1 := axis_le ha hs pa (fun e he => (h1 e he).1) q hq
    have l2 := axis_le hb hs.symm pb (fun e he => (h1 e (he.trans hs.symm)).2) q hq'
    obtain ⟨m1, m2, m3⟩ := progression_eq (pa q hq) (pb q hq') (ha.2 q hq).2.1 (hb.2 q hq').2.1 l1 l2
    exact ⟨by omega, m2, h2.resolve_left nea q hq⟩

/-- With at least two points along every dimension, `==` is equality of the points. -/
theorem C08_strided_eq_iff (a b : SDom τ) (ha : SValid a) (hb : SValid b) (hs : SameTags a b)
    (ca : scard a < 2 ^ 64) (cb : scard b < 2 ^ 64) (h2 : ∀ q ∈ tags a, 2 ≤ count q a) :
    ∃ r, SDom.eq a b = .ok r ∧ (r = true ↔ ∀ e : Elem τ, SameTags e a → (InGrid a e ↔ InGrid b e)) := by
  obtain ⟨r, r1, r2⟩ := C08_strided_eq_partial a b ha hb hs ca cb
  refine ⟨r, r1, r2.trans ⟨fun h => h.1, fun h => ⟨h, .inr ?_⟩⟩⟩
  have pa : ∀ q ∈ tags a, 1 ≤ count q a := fun q hq => by have := h2 q hq; omega
  have pb : ∀ q ∈ tags b, 1 ≤ count q b := by
    have hf : InGrid a (SDom.front a) := by
      intro q hq
      obtain ⟨⟨x, y, z⟩, hx⟩ := get_ok_iff_mem_tags.2 hq
      refine ⟨0, by omega, by have := pa q hq; omega, ?_⟩
      rw [idx_ok (get_front_ok hx), first_ok hx]; simp
    have hf' := (h _ (by rw [SameTags, tags_front])).1 hf
    intro q hq
    obtain ⟨k, k1, k2, _⟩ := hf' q hq
    omega
  intro q hq
  have hq' := hs.mem_iff.1 hq
  have l1 := axis_le ha hs pa (fun e he => (h e he).1) q hq
  have l2 := axis_le hb hs.symm pb (fun e he => (h e (he.trans hs.symm)).2) q hq'
  exact (progression_eq (pa q hq) (pb q hq') (ha.2 q hq).2.1 (hb.2 q hq').2.1 l1 l2).2.2 (h2 q hq)

/-- The code disagrees with the claim on extents of one: the same single point, but
different strides, compares unequal. -/
theorem C08_strided_eq_stride :
    ∃ a b : SDom Char, SValid a ∧ SValid b ∧ SameTags a b ∧ SDom.eq a b = .ok false ∧
      ∀ e : Elem Char, SameTags e a → (InGrid a e ↔ InGrid b e) := by
  have hv : ∀ s : I64, 1 ≤ s.toInt → s.toInt < 2 ^ 63 → SValid ([('x', (5, 1, s))] : SDom Char) := by
    intro s h1 h2
    refine ⟨by simp, ?_⟩
    intro q hq
    have hq : q = 'x' := by simpa using hq
    subst hq
    have e1 : (1 : I64).toInt = 1 := rfl
    have e5 : (5 : U64).toNat = 5 := rfl
    simp only [count, step, first, get_cons, if_true, e1, e5]
    omega
  refine ⟨[('x', (5, 1, 1))], [('x', (5, 1, 2))], hv 1 (by decide) (by decide), hv 2 (by decide) (by decide),
    by simp [SameTags], by decide, ?_⟩
  intro e he
  have key : ∀ s : I64, InGrid ([('x', (5, 1, s))] : SDom Char) e ↔ idx 'x' e = 5 := by
    intro s
    have e1 : (1 : I64).toInt = 1 := rfl
    have e5 : (5 : U64).toNat = 5 := rfl
    simp only [InGrid, OnGrid, tags_cons, tags_nil, List.mem_singleton, forall_eq, count, step, first,
      get_cons, if_true, e1, e5]
    constructor
    · rintro ⟨k, k1, k2, k3⟩
      have : k = 0 := by omega
      subst this
      omega
    · intro h
      exact ⟨0, by omega, by omega, by omega⟩
  rw [key, key]

end strided

/-! ## Sparse domains -/

section sparse
open SpDom

private theorem equal_ok {l m : List U64} (h : l.length = m.length) :
    ∃ c, SpDom.equal l m = .ok c ∧ (c = true ↔ l = m) := by
  induction l generalizing m with
  | nil =>
    cases m with
    | nil => exact ⟨true, rfl, by simp⟩
    | cons y m => simp at h
  | cons x l ih =>
    cases m with
    | nil => simp at h
    | cons y m =>
      obtain ⟨c, h1, h2⟩ := ih (m := m) (by simpa using h)
      by_cases hxy : x = y
      · exact ⟨c, by simp [SpDom.equal, hxy, h1], by simp [h2, hxy]⟩
      · exact ⟨false, by simp [SpDom.equal, hxy], by simp [hxy]⟩

private theorem eqLoop_ok {a b : SpDom τ} (ht : tags a = tags b) :
    ∃ c, SpDom.eqLoop (vals a) (vals b) = .ok c ∧ (c = true ↔ a = b) := by
  induction a generalizing b with
  | nil =>
    cases b with
    | nil => exact ⟨true, rfl, by simp⟩
    | cons p b => simp at ht
  | cons p a ih =>
    cases b with
    | nil => simp at ht
    | cons r b =>
      obtain ⟨t, l⟩ := p
      obtain ⟨u, m⟩ := r
      simp only [tags_cons, List.cons.injEq] at ht
      obtain ⟨rfl, ht⟩ := ht
      obtain ⟨c, h1, h2⟩ := ih ht
      by_cases hl : l.length = m.length
      · obtain ⟨c', g1, g2⟩ := equal_ok hl
        cases c' with
        | true =>
          refine ⟨c, ?_, by simp [h2, g2.1 rfl]⟩
          simp [vals, SpDom.eqLoop, hl, g1]
          exact h1
        | false =>
          refine ⟨false, ?_, ?_⟩
          · simp [vals, SpDom.eqLoop, hl, g1]
          · have : l ≠ m := fun h => by simpa using g2.2 h
            simp [this]
      · refine ⟨false, by simp [vals, SpDom.eqLoop, hl], ?_⟩
        have : l ≠ m := fun h => hl (by rw [h])
        simp [this]

private theorem perm_prod {l m : List Nat} (h : l.Perm m) : l.prod = m.prod := by
  induction h with
  | nil => rfl
  | cons x _ ih => simp [ih]
  | swap x y l => simp [Nat.mul_left_comm]
  | trans _ _ ih1 ih2 => rw [ih1, ih2]

/-- Number of points of a sparse domain. -/
def spcard (d : SpDom τ) : Nat := (d.map (fun p => p.2.length)).prod

private theorem sizeAux_ok' (l : List (List U64)) (acc : U64) (k : Nat) (h : acc.toNat = k % 2 ^ 64) :
    (SpDom.sizeAux l acc).toNat = (k * (l.map List.length).prod) % 2 ^ 64 := by
  induction l generalizing acc k with
  | nil => simpa [SpDom.sizeAux] using h
  | cons x l ih =>
    simp only [SpDom.sizeAux, List.map_cons, List.prod_cons]
    rw [ih _ (k * x.length) (by
      rw [BitVec.toNat_mul, BitVec.toNat_ofNat, h, Nat.mul_mod_mod, Nat.mod_mul_mod]), Nat.mul_assoc]

/-- `size()` is the product of the numbers of indices, modulo `2^64`. -/
theorem C14_size (d : SpDom τ) : (SpDom.size d).toNat = spcard d % 2 ^ 64 := by
  rw [SpDom.size, sizeAux_ok' _ 1 1 (by decide), spcard, vals, List.map_map]
  simp [Function.comp_def]

private theorem empty_iff' {d : SpDom τ} (hc : spcard d < 2 ^ 64) :
    SpDom.empty d = true ↔ ∃ p ∈ d, p.2 = [] := by
  have h := C14_size d
  rw [Nat.mod_eq_of_lt hc] at h
  rw [SpDom.empty, decide_eq_true_iff]
  have : SpDom.size d = 0 ↔ spcard d = 0 := by
    rw [← h]
    exact ⟨fun h => by rw [h]; rfl, fun h => BitVec.eq_of_toNat_eq (by simpa using h)⟩
  rw [this, spcard, SDom.prod_eq_zero]
  simp [List.mem_map]

private theorem sp_axis_le {a b : SpDom τ}
    (hne : ∀ q l, get q a = .ok l → l ≠ [])
    (h : ∀ e : Elem τ, SameTags e a → (InSparse a e → InSparse b e)) :
    ∀ q l m, get q a = .ok l → get q b = .ok m → ∀ x ∈ l, x ∈ m := by
  intro q l m hl hm x hx
  let e := point a (fun l => l.headD 0) q x
  have he : tags e = tags a := tags_point _ _ _ _
  have hin : InSparse a e := by
    intro r l' hl'
    refine ⟨_, get_point hl', ?_⟩
    by_cases hrq : r = q
    · subst hrq
      rw [hl] at hl'; injection hl' with hl'
      subst hl'
      rw [if_pos rfl]; exact hx
    · rw [if_neg hrq]
      have := hne r l' hl'
      cases l' with
      | nil => exact absurd rfl this
      | cons y l' => simp
  obtain ⟨y, hy, hym⟩ := h e (by rw [SameTags, he]) hin q m hm
  rw [get_point hl, if_pos rfl] at hy
  injection hy with hy
  exact hy ▸ hym

/-- `a == b` on sparse domains (strictly increasing indices) over the same tags in any
order always has a value, and is `true` exactly when both contain the same points. -/
theorem C08_sparse_eq_iff (a b : SpDom τ) (ha : SpValid a) (hb : SpValid b) (hs : SameTags a b)
    (ca : spcard a < 2 ^ 64) (cb : spcard b < 2 ^ 64) :
    ∃ r, SpDom.eq a b = .ok r ∧
      (r = true ↔ ∀ e : Elem τ, SameTags e a → (InSparse a e ↔ InSparse b e)) := by
  have hlen : a.length = b.length := by simpa using hs.length_eq
  -- reduce to equal tag orders
  obtain ⟨b', h1, h2, h3⟩ := select_ok (qs := tags a) (x := b) (fun q hq => hs.mem_iff.1 hq)
  have hperm : b'.Perm b := by
    refine (List.perm_ext_iff_of_nodup ?_ ?_).2 ?_
    · exact List.Nodup.of_map Prod.fst (by have : (tags b').Nodup := h2 ▸ ha.1; exact this)
    · exact List.Nodup.of_map Prod.fst hb.1
    · rintro ⟨q, l⟩
      constructor
      · intro hm
        have hg := get_of_mem (h2 ▸ ha.1) hm
        rw [h3 q (h2 ▸ mem_tags_of_get hg)] at hg
        exact get_mem hg
      · intro hm
        have hg := get_of_mem hb.1 hm
        rw [← h3 q (hs.mem_iff.2 (mem_tags_of_get hg))] at hg
        exact get_mem hg
  have cb' : spcard b' < 2 ^ 64 := by
    rw [spcard, perm_prod (hperm.map _)]; exact cb
  have hin : ∀ e, InSparse b e ↔ InSparse b' e := by
    intro e
    constructor
    · intro h q l hl
      exact h q l (by rw [← h3 q (h2 ▸ mem_tags_of_get hl)]; exact hl)
    · intro h q l hl
      exact h q l (by rw [h3 q (hs.mem_iff.2 (mem_tags_of_get hl))]; exact hl)
  obtain ⟨c, c1, c2⟩ := eqLoop_ok h2.symm
  have hall : SpDom.eq a b = .ok (if (SpDom.empty a && SpDom.empty b') = true then true else c) := by
    have hu : TypeSeq.isUnique (tags a) = true := (TypeSeq.isUnique_iff _).2 ha.1
    by_cases ht : tags a = tags b
    · have hbb : b' = b := by
        refine ext_get (by rw [h2, ht]) (h2 ▸ ha.1) ?_
        intro q hq; exact h3 q (h2 ▸ hq)
      rw [hbb] at c1 ⊢
      simp only [SpDom.eq, hlen, decide_true, Res.guardIll_true, Res.ok_bind, ht, if_true, c1, Res.pure_eq]
      split <;> rfl
    · have hof : SpDom.ofDomains (tags a) [b] = .ok b' := by
        have : ofTuples (tags a) [b] = .ok b' := h1
        simp [SpDom.ofDomains, hu, this]
      simp only [SpDom.eq, hlen, decide_true, Res.guardIll_true, Res.ok_bind, ht, if_false, hof, c1, Res.pure_eq]
      split <;> rfl
  refine ⟨_, hall, ?_⟩
  have hs' : SameTags a b' := by rw [SameTags, h2]
  have hnone : ∀ d : SpDom τ, (tags d).Nodup → (∃ p ∈ d, p.2 = []) → ∀ e, ¬ InSparse d e := by
    rintro d hd ⟨⟨q, l⟩, hm, hl⟩ e he
    obtain ⟨x, _, hx⟩ := he q l (get_of_mem hd hm)
    simp only at hl
    simp [hl] at hx
  have hsome : ∀ d : SpDom τ, (¬ ∃ p ∈ d, p.2 = []) → InSparse d (d.map (fun p => (p.1, p.2.headD 0))) := by
    intro d hd q l hl
    refine ⟨l.headD 0, by rw [get_map_snd q (fun l : List U64 => l.headD 0) d, hl]; rfl, ?_⟩
    have : l ≠ [] := fun h => hd ⟨(q, l), get_mem hl, h⟩
    cases l with
    | nil => exact absurd rfl this
    | cons y l => simp
  simp only [hin]
  by_cases hboth : SpDom.empty a = true ∧ SpDom.empty b' = true
  · rw [if_pos (by simp [hboth])]
    simp only [true_iff]
    exact fun e _ => ⟨fun h => absurd h (hnone a ha.1 ((empty_iff' ca).1 hboth.1) e),
      fun h => absurd h (hnone b' (h2 ▸ ha.1) ((empty_iff' cb').1 hboth.2) e)⟩
  rw [if_neg (by simpa using hboth), c2]
  constructor
  · rintro rfl e _; exact Iff.rfl
  · intro h
    have nea : ¬ ∃ p ∈ a, p.2 = [] := by
      intro h0
      by_cases hb0 : ∃ p ∈ b', p.2 = []
      · exact hboth ⟨(empty_iff' ca).2 h0, (empty_iff' cb').2 hb0⟩
      · refine hnone a ha.1 h0 _ ((h _ ?_).2 (hsome b' hb0))
        rw [SameTags, tags_map_snd (fun l : List U64 => l.headD 0) b', h2]
    have neb : ¬ ∃ p ∈ b', p.2 = [] := by
      intro h0
      refine hnone b' (h2 ▸ ha.1) h0 _ ((h _ ?_).1 (hsome a nea))
      rw [SameTags, tags_map_snd (fun l : List U64 => l.headD 0) a]
    refine ext_get' h2.symm ha.1 ?_
    intro q l hl
    obtain ⟨m, hm⟩ := get_ok_iff_mem_tags.2 (h2 ▸ mem_tags_of_get hl)
    have e1 := sp_axis_le (fun r k hk hn => nea ⟨(r, k), get_mem hk, hn⟩)
      (fun e he => (h e he).1) q l m hl hm
    have e2 := sp_axis_le (fun r k hk hn => neb ⟨(r, k), get_mem hk, hn⟩)
      (fun e he => (h e (by rw [SameTags, ← h2]; exact he)).2) q m l hm hl
    have sl := (ha.2 q l hl).1
    have sm := (hb.2 q m (by rw [← h3 q (mem_tags_of_get hl)]; exact hm)).1
    have hlm : l = m := by
      have : Std.Irrefl (fun x y : U64 => x.toNat < y.toNat) := ⟨fun x h => by omega⟩
      have : Std.Antisymm (fun x y : U64 => x.toNat < y.toNat) := ⟨fun x y h h' => by omega⟩
      exact List.Pairwise.eq_of_mem_iff sl sm (fun {x} => ⟨e1 x, e2 x⟩)
    rw [hlm]; exact hm

end sparse

/-! Non-vacuity. -/
example : SDom.eq ([('x', (3, 4, 5)), ('y', (1, 2, 1))] : SDom Char) [('y', (1, 2, 1)), ('x', (3, 4, 5))] = .ok true ∧
    SDom.eq ([('x', (3, 4, 5))] : SDom Char) [('x', (3, 4, 4))] = .ok false ∧
    SDom.eq ([('x', (3, 0, 5))] : SDom Char) [('x', (7, 0, 1))] = .ok true := by decide
example : SpDom.eq ([('x', [1, 4]), ('y', [2])] : SpDom Char) [('y', [2]), ('x', [1, 4])] = .ok true ∧
    SpDom.eq ([('x', [1, 4]), ('y', [2])] : SpDom Char) [('x', [1, 5]), ('y', [2])] = .ok false ∧
    SpDom.eq ([('x', []), ('y', [2])] : SpDom Char) [('x', [1]), ('y', [])] = .ok true := ⟨rfl, rfl, rfl⟩

end DDC.Props
