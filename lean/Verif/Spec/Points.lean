import Verif.Model.Element
import Mathlib.Data.List.Forall2

/-!
# Enumeration of a Cartesian product

Specification of "all points of a domain in lexicographic order": the axes are
lists of indices, the last dimension varies fastest.
-/

namespace DDC.Spec

variable {τ : Type}

/-- Lexicographic enumeration of a product of axes. -/
def cart : List (τ × List U64) → List (Elem τ)
  | [] => [[]]
  | (t, l) :: r => l.flatMap (fun v => (cart r).map (fun e => (t, v) :: e))

/-- The indices `b, b+1, ..., e-1`. -/
def axis (b e : U64) : List U64 := (List.range (e.toNat - b.toNat)).map (fun i => b + BitVec.ofNat 64 i)

theorem mem_cart {s : List (τ × List U64)} {e : Elem τ} :
    e ∈ cart s ↔ e.map Prod.fst = s.map Prod.fst ∧
      List.Forall₂ (fun (x : τ × U64) (a : τ × List U64) => x.2 ∈ a.2) e s := by
  induction s generalizing e with
  | nil =>
    simp only [cart, List.mem_singleton, List.map_nil, List.map_eq_nil_iff]
    constructor
    · rintro rfl; exact ⟨rfl, .nil⟩
    · exact fun h => h.1
  | cons a s ih =>
    obtain ⟨t, l⟩ := a
    simp only [cart, List.mem_flatMap, List.mem_map]
    constructor
    · rintro ⟨v, hv, e', he', rfl⟩
      have := ih.1 he'
      exact ⟨by simp [this.1], .cons hv this.2⟩
    · rintro ⟨h1, h2⟩
      cases h2 with
      | cons hx hr =>
        rename_i x e'
        obtain ⟨t', v⟩ := x
        simp only [List.map_cons, List.cons.injEq] at h1
        obtain ⟨rfl, h1⟩ := h1
        exact ⟨v, hx, e', ih.2 ⟨h1, hr⟩, rfl⟩

theorem length_cart (s : List (τ × List U64)) :
    (cart s).length = (s.map (fun a => a.2.length)).prod := by
  induction s with
  | nil => rfl
  | cons a s ih =>
    obtain ⟨t, l⟩ := a
    simp only [cart, List.length_flatMap, List.length_map, List.map_cons, List.prod_cons, ih]
    induction l with
    | nil => simp
    | cons v l ih2 => simp [Nat.add_mul, Nat.add_comm]

theorem nodup_cart {s : List (τ × List U64)} (h : ∀ a ∈ s, a.2.Nodup) : (cart s).Nodup := by
  induction s with
  | nil => simp [cart]
  | cons a s ih =>
    obtain ⟨t, l⟩ := a
    have hs := ih (fun a ha => h a (by simp [ha]))
    have hl : l.Nodup := h (t, l) (by simp)
    simp only [cart]
    clear h ih
    induction l with
    | nil => simp
    | cons v l ih =>
      simp only [List.nodup_cons] at hl
      simp only [List.flatMap_cons, List.nodup_append]
      refine ⟨?_, ih hl.2, ?_⟩
      · rw [List.nodup_iff_pairwise_ne, List.pairwise_map]
        exact (List.nodup_iff_pairwise_ne.1 hs).imp (fun hne h => hne (by simpa using h))
      · intro x hx y hy
        obtain ⟨e1, _, rfl⟩ := List.mem_map.1 hx
        simp only [List.mem_flatMap, List.mem_map] at hy
        obtain ⟨w, hw, e2, _, rfl⟩ := hy
        intro h
        simp only [List.cons.injEq, Prod.mk.injEq, true_and] at h
        exact hl.1 (h.1 ▸ hw)

theorem mem_axis {b e x : U64} : x ∈ axis b e ↔ b.toNat ≤ x.toNat ∧ x.toNat < e.toNat := by
  simp only [axis, List.mem_map, List.mem_range]
  constructor
  · rintro ⟨i, hi, rfl⟩
    have hb := b.isLt; have he := e.isLt
    rw [BitVec.toNat_add, BitVec.toNat_ofNat]
    omega
  · rintro ⟨h1, h2⟩
    refine ⟨x.toNat - b.toNat, by omega, ?_⟩
    apply BitVec.eq_of_toNat_eq
    have hb := b.isLt; have he := x.isLt
    rw [BitVec.toNat_add, BitVec.toNat_ofNat]
    omega

theorem length_axis (b e : U64) : (axis b e).length = e.toNat - b.toNat := by simp [axis]

theorem axis_getElem? {b e : U64} {i : Nat} (h : i < e.toNat - b.toNat) :
    (axis b e)[i]? = some (b + BitVec.ofNat 64 i) := by simp [axis, h]

theorem axis_sorted (b e : U64) : (axis b e).Pairwise (fun x y => x.toNat < y.toNat) := by
  simp only [axis, List.pairwise_map]
  have hb := b.isLt; have he := e.isLt
  refine (List.pairwise_lt_range (n := e.toNat - b.toNat)).imp_of_mem ?_
  intro i j hi hj hij
  simp only [List.mem_range] at hi hj
  rw [BitVec.toNat_add, BitVec.toNat_ofNat, BitVec.toNat_add, BitVec.toNat_ofNat]
  omega

theorem nodup_axis (b e : U64) : (axis b e).Nodup := by
  rw [List.nodup_iff_pairwise_ne]
  exact (axis_sorted b e).imp (fun h h' => by subst h'; omega)

end DDC.Spec
