import Verif.Model.Copy
import Verif.Lemmas.SpanSlice

/-!
# Copies between buffers
-/

namespace DDC

open Tup Spec

/-- Contents of a cell, if it exists. -/
def Spec.cell {α : Type} (m : Mem α) (b p : Nat) : Option α := (m[b]?).bind (fun l => l[p]?)

namespace Mem

variable {α : Type}

theorem read_eq {m : Mem α} {b p : Nat} {x : α} : m.read b p = .ok x ↔ cell m b p = some x := by
  unfold Mem.read cell Span.read
  cases m[b]? with
  | none => simp
  | some l => cases h : l[p]? <;> simp [h]

theorem write_ok {m : Mem α} {b p : Nat} (h : (cell m b p).isSome) (x : α) :
    ∃ m', m.write b p x = .ok m' ∧
      (∀ c r, cell m' c r = if c = b ∧ r = p then some x else cell m c r) := by
  unfold cell at h
  unfold Mem.write
  cases hb : m[b]? with
  | none => simp [hb] at h
  | some l =>
    simp only [hb, Option.bind_some] at h
    have hp : p < l.length := by
      by_contra hn
      rw [List.getElem?_eq_none (by omega)] at h; simp at h
    refine ⟨m.set b (l.set p x), by simp [Span.write, hp], ?_⟩
    intro c r
    have hbl : b < m.length := by
      by_contra hn
      rw [List.getElem?_eq_none (by omega)] at hb; simp at hb
    unfold cell
    rw [List.getElem?_set]
    by_cases hc : b = c
    · subst hc
      rw [if_pos rfl, if_pos hbl, hb]
      simp only [Option.bind_some, List.getElem?_set]
      by_cases hr : p = r
      · subst hr; simp [hp]
      · have : ¬ r = p := fun h => hr h.symm
        simp [hr, this]
    · have : ¬ c = b := fun h => hc h.symm
      simp [hc, this]

end Mem

variable {α : Type}

/-- Copying cells one after the other: a written cell that is also read is only rewritten
with its own value, so the order does not matter. -/
theorem copyCells_ok {db sb : Nat} (jobs : List (Nat × Nat)) (mem : Mem α)
    (hw : ∀ j ∈ jobs, (cell mem db j.1).isSome) (hr : ∀ j ∈ jobs, (cell mem sb j.2).isSome)
    (hf : ∀ j ∈ jobs, ∀ k ∈ jobs, j.1 = k.1 → j.2 = k.2)
    (ho : ∀ j ∈ jobs, ∀ k ∈ jobs, db = sb → j.1 = k.2 → j.1 = j.2) :
    ∃ mem', jobs.foldlM (copyCell db sb) mem = .ok mem' ∧
      (∀ j ∈ jobs, cell mem' db j.1 = cell mem sb j.2) ∧
      (∀ b p, (b = db → ∀ j ∈ jobs, j.1 ≠ p) → cell mem' b p = cell mem b p) := by
  induction jobs generalizing mem with
  | nil => exact ⟨mem, rfl, by simp, by simp⟩
  | cons a jobs ih =>
    obtain ⟨x, hx⟩ := Option.isSome_iff_exists.1 (hr a (by simp))
    obtain ⟨m1, h1, h2⟩ := Mem.write_ok (hw a (by simp)) x
    -- sources still hold their initial values
    have hsrc : ∀ j ∈ a :: jobs, cell m1 sb j.2 = cell mem sb j.2 := by
      intro j hj
      rw [h2]
      split
      · rename_i hc
        have := ho a (by simp) j hj hc.1.symm hc.2.symm
        rw [hc.2, this, hx]
      · rfl
    obtain ⟨m2, g1, g2, g3⟩ := ih m1
      (by
        intro j hj; rw [h2]; split
        · rfl
        · exact hw j (by simp [hj]))
      (by intro j hj; rw [hsrc j (by simp [hj])]; exact hr j (by simp [hj]))
      (fun j hj k hk => hf j (by simp [hj]) k (by simp [hk]))
      (fun j hj k hk => ho j (by simp [hj]) k (by simp [hk]))
    refine ⟨m2, ?_, ?_, ?_⟩
    · rw [List.foldlM_cons, copyCell, Mem.read_eq.2 hx, Res.ok_bind, h1, Res.ok_bind, g1]
    · intro j hj
      rcases List.mem_cons.1 hj with rfl | hj'
      · by_cases hk : ∃ k ∈ jobs, k.1 = j.1
        · obtain ⟨k, hk, he⟩ := hk
          rw [← he, g2 k hk, hsrc k (by simp [hk]), hf j (by simp) k (by simp [hk]) he.symm]
        · rw [g3 db j.1 (fun _ k hk' he => hk ⟨k, hk', he⟩), h2, if_pos ⟨rfl, rfl⟩, hx]
      · rw [g2 j hj', hsrc j hj]
    · intro b p hbp
      rw [g3 b p (fun hb j hj => hbp hb j (by simp [hj])), h2, if_neg]
      rintro ⟨rfl, rfl⟩
      exact hbp rfl a (by simp) rfl

theorem fillCells_ok {db : Nat} (jobs : List Nat) (mem : Mem α) (x : α)
    (hw : ∀ p ∈ jobs, (cell mem db p).isSome) :
    ∃ mem', jobs.foldlM (fun m p => Mem.write m db p x) mem = .ok mem' ∧
      (∀ p ∈ jobs, cell mem' db p = some x) ∧
      (∀ b p, (b = db → p ∉ jobs) → cell mem' b p = cell mem b p) := by
  induction jobs generalizing mem with
  | nil => exact ⟨mem, rfl, by simp, by simp⟩
  | cons a jobs ih =>
    obtain ⟨m1, h1, h2⟩ := Mem.write_ok (hw a (by simp)) x
    obtain ⟨m2, g1, g2, g3⟩ := ih m1 (by
      intro p hp; rw [h2]; split
      · rfl
      · exact hw p (by simp [hp]))
    refine ⟨m2, by rw [List.foldlM_cons, h1, Res.ok_bind, g1], ?_, ?_⟩
    · intro p hp
      by_cases hk : p ∈ jobs
      · exact g2 p hk
      · have : p = a := by simpa [hk] using hp
        subst this
        rw [g3 db p (fun _ => hk), h2, if_pos ⟨rfl, rfl⟩]
    · intro b p hbp
      rw [g3 b p (fun hb h => hbp hb (by simp [h])), h2, if_neg]
      rintro ⟨rfl, rfl⟩
      exact hbp rfl (by simp)

/-- A loop over index tuples as a loop over cells. -/
theorem foldlM_jobs {β σ κ : Type} (f : κ → Res β) (g : σ → β → Res σ) {l : List κ} {js : List β}
    (h : List.Forall₂ (fun x j => f x = .ok j) l js) (s : σ) :
    l.foldlM (fun s x => do let j ← f x; g s j) s = js.foldlM g s := by
  induction h generalizing s with
  | nil => rfl
  | @cons x j l js hx _ ih =>
    simp only [List.foldlM_cons, hx, Res.ok_bind]
    congr 1
    funext s'
    exact ih s'

namespace MDSpan

theorem mem_indices {ds : List (U64 × U64)} {is : List U64} :
    is ∈ indices (ds.map Prod.fst) ↔ InExt ds is := by
  induction ds generalizing is with
  | nil =>
    simp only [List.map_nil, indices, List.mem_singleton]
    constructor
    · rintro rfl; exact .nil
    · intro h; cases h; rfl
  | cons d ds ih =>
    simp only [List.map_cons, indices, List.mem_flatMap, List.mem_range, List.mem_map]
    constructor
    · rintro ⟨i, hi, r, hr, rfl⟩
      refine .cons ?_ (ih.1 hr)
      rw [BitVec.lt_def, BitVec.toNat_ofNat]
      have := d.1.isLt
      rw [Nat.mod_eq_of_lt (by omega)]; exact hi
    · intro h
      cases h with
      | @cons _ i _ r hi hr =>
        exact ⟨i.toNat, hi, r, ih.2 hr, by simp⟩

end MDSpan

variable {τ : Type} [DecidableEq τ]

namespace Support

theorem mem_mdRange {ax : List (τ × List U64)} (hs : ∀ a ∈ ax, a.2.length < 2 ^ 63) {ids : List I64} :
    ids ∈ mdRange (ax.map (fun a => BitVec.ofNat 64 a.2.length)) ↔ ∃ e, Picks ax ids e := by
  induction ax generalizing ids with
  | nil =>
    simp only [List.map_nil, mdRange, List.mem_singleton]
    constructor
    · rintro rfl; exact ⟨[], trivial⟩
    · rintro ⟨e, he⟩; cases ids <;> cases e <;> simp_all [Picks]
  | cons a ax ih =>
    obtain ⟨t, l⟩ := a
    have hl : l.length < 2 ^ 63 := hs (t, l) (by simp)
    have ih := fun ids => ih (ids := ids) (fun a ha => hs a (by simp [ha]))
    simp only [List.map_cons, mdRange, List.mem_flatMap, List.mem_map, List.mem_range, ih,
      toInt_ofNat_small hl, Int.toNat_natCast]
    constructor
    · rintro ⟨_, ⟨i, hi, rfl⟩, r, ⟨e, he⟩, rfl⟩
      refine ⟨(t, l[i]) :: e, rfl, ?_, he⟩
      rw [BitVec.toNat_ofNat, Nat.mod_eq_of_lt (by omega), List.getElem?_eq_getElem hi]
    · rintro ⟨e, he⟩
      cases ids with
      | nil => simp [Picks] at he
      | cons i ids =>
        cases e with
        | nil => simp [Picks] at he
        | cons c e =>
          obtain ⟨_, h2, h3⟩ := he
          have : i.toNat < l.length := by
            by_contra hn
            rw [List.getElem?_eq_none (by omega)] at h2; cases h2
          exact ⟨i, ⟨i.toNat, this, by simp⟩, ids, ⟨e, h3⟩, rfl⟩

theorem mem_policy {ax : List (τ × List U64)} (hne : ax ≠ []) (hs : ∀ a ∈ ax, a.2.length < 2 ^ 63) {ids : List I64} :
    ids ∈ policy (ax.map (fun a => BitVec.ofNat 64 a.2.length)) ↔ ∃ e, Picks ax ids e := by
  rw [← mem_mdRange hs]
  cases ax with
  | nil => exact absurd rfl hne
  | cons a ax =>
    cases ax with
    | nil => simp only [policy, mdRange, List.map_cons, List.map_nil, List.flatMap_singleton, List.map_flatMap, List.flatMap_map]; simp [eq_comm]
    | cons b ax => rfl

end Support

variable {D : Type} {ops : SpanOps τ D} {axesOf : D → List (τ × List U64)} {V : D → Prop}

/-- Access by position and by element reach the same cell. -/
theorem SpanKind.access_picks (K : SpanKind ops axesOf V) {s : Span D} (hV : V s.dom) (hw : WF ops s)
    {is : List I64} {e : Elem τ} (h : Picks (axesOf s.dom) is e) :
    ∃ p, s.access ops [e] = .ok p ∧ p < s.md.cells ∧ s.md.access is = .ok p ∧
      MDSpan.InExt s.md.dims is ∧
      ∀ v : Vect τ, Tup.tags v = Tup.tags (axesOf s.dom) → vals v = is → s.accessVec ops [v] = .ok p := by
  have hin := picks_cart h
  have hnd := K.nodup _ hV
  have ht : Tup.tags e = Tup.tags (axesOf s.dom) := ((mem_cart_get hnd).1 hin).1
  obtain ⟨v, _, _, v3, v4, v5, a, b⟩ := K.access_mem hV hw (es := [e]) (by simp [ht]) (ofTuples_one hnd ht) hin
  have hv := picks_unique (K.sorted _ hV) v4 h
  subst hv
  have hacc := (MDSpan.access_ok v5 hw.fits).1
  refine ⟨_, a, b, hacc, v5, ?_⟩
  intro w hw1 hw2
  rw [K.access_vec hV (vs := [w]) (by simp [hw1]) (ofTuples_one hnd hw1), hw2, hacc]

end DDC
