import Verif.Model.Chunk
import Verif.Lemmas.Radix
import Mathlib.Algebra.Order.BigOperators.Group.List
import Mathlib.Algebra.Order.BigOperators.GroupWithZero.List

/-!
# Layout mappings
-/

namespace DDC

open Spec

/-- Largest offset of a strided mapping with positive extents, as a natural number. -/
def Spec.reach : List (U64 × U64) → Nat
  | [] => 0
  | (n, s) :: ds => (n.toNat - 1) * s.toNat + reach ds

/-- Offset of a multi-index, as a natural number. -/
def Spec.offset : List (U64 × U64) → List U64 → Nat
  | (_, s) :: ds, i :: is => i.toNat * s.toNat + offset ds is
  | _, _ => 0

/-- The mdspan covers cells of its allocation only: the exact counterpart, without
wrap-around, of the precondition `[0, required_span_size()) ⊆ allocation`. -/
structure Spec.Fits (m : MDSpan) : Prop where
  start : m.off ≤ m.cells
  inside : (∀ d ∈ m.dims, d.1 ≠ 0) → m.off + reach m.dims < m.cells ∧ reach m.dims + 1 < 2 ^ 64

namespace MDSpan

/-- The indices are below the extents. -/
abbrev InExt (ds : List (U64 × U64)) (is : List U64) : Prop := List.Forall₂ (fun d i => i < d.1) ds is

theorem offset_le {ds : List (U64 × U64)} {is : List U64} (h : InExt ds is) : offset ds is ≤ reach ds := by
  induction h with
  | nil => simp [offset, reach]
  | @cons d i ds is hi _ ih =>
    obtain ⟨n, s⟩ := d
    simp only [offset, reach]
    have h1 : i.toNat < n.toNat := hi
    have : i.toNat * s.toNat ≤ (n.toNat - 1) * s.toNat := Nat.mul_le_mul_right _ (by omega)
    omega

theorem inExt_pos {ds : List (U64 × U64)} {is : List U64} (h : InExt ds is) : ∀ d ∈ ds, d.1 ≠ 0 := by
  induction h with
  | nil => simp
  | cons hi _ ih =>
    intro d hd
    rcases List.mem_cons.1 hd with rfl | hd
    · intro h0
      have h1 : _ < _ := hi
      rw [h0] at h1
      exact absurd h1 (by simp)
    · exact ih d hd

theorem mapping_ok {ds : List (U64 × U64)} {is : List U64} (h : InExt ds is) (hr : reach ds < 2 ^ 64) :
    mapping ds is = .ok (BitVec.ofNat 64 (offset ds is)) := by
  induction h with
  | nil => rfl
  | @cons d i ds is hi hI ih =>
    obtain ⟨n, s⟩ := d
    simp only [reach] at hr
    have := ih (by omega)
    have h1 : i < n := hi
    simp only [mapping, offset, h1, if_true, this, Res.ok_bind, Res.pure_eq]
    congr 1
    apply BitVec.eq_of_toNat_eq
    simp

theorem access_ok {m : MDSpan} {is : List U64} (h : InExt m.dims is) (hf : Fits m) :
    m.access is = .ok (m.off + offset m.dims is) ∧ m.off + offset m.dims is < m.cells := by
  obtain ⟨h1, h2⟩ := hf.inside (inExt_pos h)
  have h3 := offset_le h
  have h4 : (BitVec.ofNat 64 (offset m.dims is)).toNat = offset m.dims is := by
    rw [BitVec.toNat_ofNat]; exact Nat.mod_eq_of_lt (by omega)
  refine ⟨?_, by omega⟩
  rw [access, mapping_ok h (by omega)]
  simp only [Res.ok_bind, h4]
  rw [if_pos (by omega)]; rfl

theorem access_ub {m : MDSpan} {is : List U64} (hl : m.dims.length = is.length) (h : ¬ InExt m.dims is) :
    m.access is = .ub := by
  have : mapping m.dims is = .ub := by
    generalize m.dims = ds at *
    induction ds generalizing is with
    | nil => cases is with
      | nil => exact absurd List.Forall₂.nil h
      | cons => simp at hl
    | cons d ds ih =>
      cases is with
      | nil => simp at hl
      | cons i is =>
        obtain ⟨n, s⟩ := d
        simp only [mapping]
        split
        · rename_i hi
          rw [ih (by simpa using hl) (fun h' => h (.cons hi h'))]; rfl
        · rfl
  rw [access, this]; rfl

/-! ## Contiguous layouts -/

theorem toNat_prod (ns : List U64) : (prod ns).toNat = (ns.map BitVec.toNat).prod % 2 ^ 64 := by
  induction ns with
  | nil => rfl
  | cons n ns ih =>
    simp only [prod, List.map_cons, List.prod_cons, BitVec.toNat_mul, ih]
    rw [Nat.mul_mod_mod]

theorem map_fst_layoutRight (ns : List U64) : (layoutRight ns).map Prod.fst = ns := by
  induction ns with
  | nil => rfl
  | cons n ns ih => simp [layoutRight, ih]

theorem map_fst_layoutLeft (acc : U64) (ns : List U64) : (layoutLeft acc ns).map Prod.fst = ns := by
  induction ns generalizing acc with
  | nil => rfl
  | cons n ns ih => simp [layoutLeft, ih]

theorem inExt_iff {ds : List (U64 × U64)} {is : List U64} :
    InExt ds is ↔ Within ((ds.map Prod.fst).map BitVec.toNat) (is.map BitVec.toNat) := by
  rw [List.map_map, Within, List.forall₂_map_left_iff, List.forall₂_map_right_iff]
  rfl

theorem prod_le_of_pos {n : Nat} {ns : List Nat} (h : n ≠ 0) : ns.prod ≤ (n :: ns).prod := by
  rw [List.prod_cons]
  exact Nat.le_mul_of_pos_left _ (Nat.pos_of_ne_zero h)

theorem layoutRight_ok {ns : List U64} (h : ∀ n ∈ ns, n ≠ 0) (hp : (ns.map BitVec.toNat).prod < 2 ^ 64) :
    reach (layoutRight ns) + 1 = (ns.map BitVec.toNat).prod ∧
    ∀ is, offset (layoutRight ns) is = radix (ns.map BitVec.toNat) (is.map BitVec.toNat) := by
  induction ns with
  | nil => exact ⟨rfl, fun is => rfl⟩
  | cons n ns ih =>
    have hn : n.toNat ≠ 0 := fun h0 => h n (by simp) (BitVec.eq_of_toNat_eq h0)
    have hle := prod_le_of_pos (ns := ns.map BitVec.toNat) hn
    simp only [List.map_cons] at hp
    obtain ⟨h1, h2⟩ := ih (fun n hn => h n (List.mem_cons_of_mem _ hn)) (by omega)
    have hs : (prod ns).toNat = (ns.map BitVec.toNat).prod := by
      rw [toNat_prod]; exact Nat.mod_eq_of_lt (by omega)
    constructor
    · simp only [layoutRight, reach, List.map_cons, List.prod_cons, hs]
      obtain ⟨k, hk⟩ : ∃ k, n.toNat = k + 1 := ⟨n.toNat - 1, by omega⟩
      rw [hk, Nat.add_sub_cancel, Nat.add_one_mul]; omega
    · intro is
      cases is with
      | nil => rfl
      | cons i is => simp only [layoutRight, offset, List.map_cons, radix, h2, hs]

theorem layoutLeft_ok {acc : U64} {ns : List U64} (h : ∀ n ∈ ns, n ≠ 0) (ha : acc ≠ 0)
    (hp : acc.toNat * (ns.map BitVec.toNat).prod < 2 ^ 64) :
    reach (layoutLeft acc ns) + acc.toNat = acc.toNat * (ns.map BitVec.toNat).prod ∧
    ∀ is, offset (layoutLeft acc ns) is = acc.toNat * radixL (ns.map BitVec.toNat) (is.map BitVec.toNat) := by
  induction ns generalizing acc with
  | nil => exact ⟨by simp [layoutLeft, reach], fun is => by cases is <;> simp [layoutLeft, offset, radixL]⟩
  | cons n ns ih =>
    have hn : n.toNat ≠ 0 := fun h0 => h n (by simp) (BitVec.eq_of_toNat_eq h0)
    have hacc : acc.toNat ≠ 0 := fun h0 => ha (BitVec.eq_of_toNat_eq h0)
    have hpos : 0 < (ns.map BitVec.toNat).prod := by
      refine List.prod_pos ?_
      intro k hk
      obtain ⟨m, hm, rfl⟩ := List.mem_map.1 hk
      exact Nat.pos_of_ne_zero fun h0 => h m (List.mem_cons_of_mem _ hm) (BitVec.eq_of_toNat_eq h0)
    simp only [List.map_cons, List.prod_cons] at hp
    have hm : acc.toNat * n.toNat < 2 ^ 64 := by
      have : acc.toNat * n.toNat * 1 ≤ acc.toNat * n.toNat * (ns.map BitVec.toNat).prod :=
        Nat.mul_le_mul_left _ hpos
      rw [Nat.mul_assoc acc.toNat n.toNat (List.prod _)] at this
      omega
    have hs : (acc * n).toNat = acc.toNat * n.toNat := by
      rw [BitVec.toNat_mul]; exact Nat.mod_eq_of_lt hm
    have hne : acc * n ≠ 0 := by
      intro h0
      have : (acc * n).toNat = 0 := by rw [h0]; rfl
      rw [hs] at this
      rcases Nat.mul_eq_zero.1 this with h | h <;> contradiction
    obtain ⟨h1, h2⟩ := ih (acc := acc * n) (fun n hn => h n (List.mem_cons_of_mem _ hn)) hne
      (by rw [hs, Nat.mul_assoc]; exact hp)
    rw [hs] at h1 h2
    constructor
    · simp only [layoutLeft, reach, List.map_cons, List.prod_cons]
      rw [← Nat.mul_assoc]
      obtain ⟨k, hk⟩ : ∃ k, n.toNat = k + 1 := ⟨n.toNat - 1, by omega⟩
      rw [hk] at h1 ⊢
      rw [Nat.add_sub_cancel]
      have : acc.toNat * (k + 1) = k * acc.toNat + acc.toNat := by ring
      omega
    · intro is
      cases is with
      | nil => simp [layoutLeft, offset, radixL]
      | cons i is =>
        simp only [layoutLeft, offset, List.map_cons, radixL, h2]
        ring

theorem fits_layoutRight {ns : List U64} {c : Nat} (hc : c = (prod ns).toNat)
    (hp : (ns.map BitVec.toNat).prod < 2 ^ 64) : Fits ⟨0, layoutRight ns, c⟩ where
  start := Nat.zero_le _
  inside := by
    intro hne
    have hne' : ∀ n ∈ ns, n ≠ 0 := by
      intro n hn
      rw [← map_fst_layoutRight ns] at hn
      obtain ⟨d, hd, rfl⟩ := List.mem_map.1 hn
      exact hne d hd
    have := (layoutRight_ok hne' hp).1
    rw [toNat_prod, Nat.mod_eq_of_lt hp] at hc
    simp only
    omega

theorem fits_layoutLeft {ns : List U64} {c : Nat} (hc : c = (prod ns).toNat)
    (hp : (ns.map BitVec.toNat).prod < 2 ^ 64) : Fits ⟨0, layoutLeft 1 ns, c⟩ where
  start := Nat.zero_le _
  inside := by
    intro hne
    have hne' : ∀ n ∈ ns, n ≠ 0 := by
      intro n hn
      rw [← map_fst_layoutLeft 1 ns] at hn
      obtain ⟨d, hd, rfl⟩ := List.mem_map.1 hn
      exact hne d hd
    have h1 : (1 : U64).toNat = 1 := rfl
    have := (layoutLeft_ok (acc := 1) hne' (by simp) (by rw [h1]; omega)).1
    rw [h1] at this
    rw [toNat_prod, Nat.mod_eq_of_lt hp] at hc
    simp only
    omega

/-! ## submdspan -/

/-- The offset computed by `submdspan` is inside the reach. -/
theorem sliceOffset_eq {ds : List (U64 × U64)} {ss : List Slicer} (hl : ds.length = ss.length)
    (h : InExt ds (ss.map sliceFirst)) (hr : reach ds < 2 ^ 64) :
    (sliceOffset ds ss).toNat = offset ds (ss.map sliceFirst) ∧ offset ds (ss.map sliceFirst) ≤ reach ds := by
  refine ⟨?_, offset_le h⟩
  have hle := offset_le h
  have : sliceOffset ds ss = BitVec.ofNat 64 (offset ds (ss.map sliceFirst)) := by
    clear h hr hle
    induction ds generalizing ss with
    | nil => cases ss with
      | nil => rfl
      | cons => simp at hl
    | cons d ds ih =>
      cases ss with
      | nil => simp at hl
      | cons sl ss =>
        obtain ⟨n, s⟩ := d
        simp only [sliceOffset, List.map_cons, offset]
        rw [ih (by simpa using hl)]
        apply BitVec.eq_of_toNat_eq
        simp
  rw [this, BitVec.toNat_ofNat]; exact Nat.mod_eq_of_lt (by omega)

theorem requiredSpan_eq {ds : List (U64 × U64)} (hr : reach ds + 1 < 2 ^ 64) :
    requiredSpan ds = if ∀ d ∈ ds, d.1 ≠ 0 then BitVec.ofNat 64 (reach ds + 1) else 0 := by
  induction ds with
  | nil => simp [requiredSpan, reach]
  | cons d ds ih =>
    obtain ⟨n, s⟩ := d
    simp only [reach] at hr
    have := ih (by omega)
    simp only [requiredSpan, this, List.forall_mem_cons]
    by_cases hn : n = 0
    · simp [hn]
    · by_cases hds : ∀ d ∈ ds, d.1 ≠ 0
      · simp only [if_pos hds]
        have h1 : BitVec.ofNat 64 (reach ds + 1) ≠ 0 := by
          intro h0
          have := congrArg BitVec.toNat h0
          rw [BitVec.toNat_ofNat, Nat.mod_eq_of_lt (by omega)] at this
          simp at this
        rw [if_neg (by simp only [hn, false_or]; exact h1), if_pos ⟨hn, hds⟩]
        apply BitVec.eq_of_toNat_eq
        have hn' : 1 ≤ n.toNat := by
          rcases Nat.eq_zero_or_pos n.toNat with h | h
          · exact absurd (BitVec.eq_of_toNat_eq h) hn
          · exact h
        have hlt := n.isLt
        have : (n - 1).toNat = n.toNat - 1 := by
          rw [BitVec.toNat_sub]
          have : (1 : U64).toNat = 1 := rfl
          rw [this]
          omega
        simp only [BitVec.toNat_add, BitVec.toNat_mul, this, BitVec.toNat_ofNat, reach]
        rw [Nat.mod_add_mod, Nat.add_mod_mod]; congr 1
      · rw [if_neg hds, if_pos (by simp), if_neg (fun h => hds h.2)]

theorem requiredSpan_zero {ds : List (U64 × U64)} (h : ¬ ∀ d ∈ ds, d.1 ≠ 0) : requiredSpan ds = 0 := by
  induction ds with
  | nil => simp at h
  | cons d ds ih =>
    obtain ⟨n, s⟩ := d
    simp only [requiredSpan]
    by_cases hn : n = 0
    · simp [hn]
    · rw [if_pos]
      right
      refine ih fun h' => h ?_
      rw [List.forall_mem_cons]; exact ⟨hn, h'⟩

end MDSpan
end DDC
