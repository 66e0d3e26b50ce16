import Verif.Model.ForEach
import Verif.Spec.Points
import Verif.Lemmas.StridedOps
import Verif.Lemmas.Sparse
import Verif.Lemmas.DomainOps
import Mathlib.Tactic.Linarith

/-!
# Loops over supports: closed forms
-/

namespace DDC

open Tup Spec

variable {τ : Type} [DecidableEq τ] {σ : Type}

/-- `is` are positions, `e` the element selected on the axes. -/
def Spec.Picks : List (τ × List U64) → List I64 → Elem τ → Prop
  | [], [], [] => True
  | (t, l) :: ax, i :: is, (u, x) :: e => u = t ∧ l[i.toNat]? = some x ∧ Picks ax is e
  | _, _, _ => False

/-- The support `S` is the product of the axes `ax`. -/
structure Spec.Grid (S : Support τ) (ax : List (τ × List U64)) : Prop where
  tags : S.tags = ax.map Prod.fst
  small : ∀ a ∈ ax, a.2.length < 2 ^ 63
  extents : S.extents = .ok (ax.map (fun a => (a.1, (BitVec.ofNat 64 a.2.length : I64))))
  pick : ∀ is e, Picks ax is e → S.at' ((ax.map Prod.fst).zip is) = .ok e

namespace Support

theorem foldlM_map' {α β : Type} (g : α → β) (l : List α) (f : σ → β → Res σ) (s : σ) :
    (l.map g).foldlM f s = l.foldlM (fun s a => f s (g a)) s := by
  induction l generalizing s with
  | nil => rfl
  | cons a l ih => simp [ih]

theorem bind_ok' {α : Type} (x : Res α) : (x >>= fun a => Res.ok a) = x := by cases x <;> rfl

theorem loop_eq (n : Int) (body : Int → σ → Res σ) (k : Nat) (i : Int) (h : i + k = max n i) (s : σ) :
    loop n body i s = (List.range k).foldlM (fun s (j : Nat) => body (i + j) s) s := by
  induction k generalizing i s with
  | zero =>
    rw [loop, if_neg (by omega)]; rfl
  | succ k ih =>
    rw [loop, if_pos (by omega), List.range_succ_eq_map, List.foldlM_cons]
    simp only [foldlM_map', Int.natCast_zero, Int.add_zero]
    congr 1
    funext s'
    rw [ih (i + 1) (by omega)]
    congr 1
    funext s'' j
    congr 1
    push_cast; ring

theorem loop_zero (n : I64) (body : Int → σ → Res σ) (s : σ) :
    loop n.toInt body 0 s = (List.range n.toInt.toNat).foldlM (fun s (j : Nat) => body j s) s := by
  rw [loop_eq n.toInt body n.toInt.toNat 0 (by omega)]
  simp

theorem toInt_ofNat_small {k : Nat} (h : k < 2 ^ 63) : (BitVec.ofNat 64 k : I64).toInt = k := by
  rw [BitVec.toInt_eq_toNat_cond, BitVec.toNat_ofNat]
  split <;> omega

theorem toNat_ofInt_small {k : Nat} (h : k < 2 ^ 63) : (BitVec.ofInt 64 (k : Int) : I64).toNat = k := by
  rw [BitVec.toNat_ofInt]; omega

/-- A fold over a list, written over its positions. -/
theorem foldlM_range {α : Type} (l : List α) (g : σ → Nat → Res σ) (g' : σ → α → Res σ)
    (h : ∀ i x s, l[i]? = some x → g s i = g' s x) (s : σ) :
    (List.range l.length).foldlM g s = l.foldlM g' s := by
  induction l generalizing g s with
  | nil => rfl
  | cons x l ih =>
    rw [List.length_cons, List.range_succ_eq_map, List.foldlM_cons, List.foldlM_cons, h 0 x s rfl]
    simp only [foldlM_map']
    congr 1
    funext s'
    exact ih _ (fun i y s hy => h (i + 1) y s (by simpa using hy)) s'

theorem foldlM_flatMap {α β : Type} (l : List α) (g : α → List β) (f : σ → β → Res σ) (s : σ) :
    (l.flatMap g).foldlM f s = l.foldlM (fun s a => (g a).foldlM f s) s := by
  induction l generalizing s with
  | nil => rfl
  | cons a l ih => simp [ih]

/-- Appending one more picked coordinate. -/
theorem picks_append {pre : List (τ × List U64)} {is : List I64} {e : Elem τ} (h : Picks pre is e)
    {t : τ} {l : List U64} {i : I64} {x : U64} (hx : l[i.toNat]? = some x) :
    Picks (pre ++ [(t, l)]) (is ++ [i]) (e ++ [(t, x)]) := by
  induction pre generalizing is e with
  | nil =>
    cases is <;> cases e <;> simp only [Picks] at h
    exact ⟨rfl, hx, trivial⟩
  | cons a pre ih =>
    obtain ⟨u, m⟩ := a
    cases is with
    | nil => cases e <;> simp only [Picks] at h
    | cons j is =>
      cases e with
      | nil => simp only [Picks] at h
      | cons p e =>
        obtain ⟨v, y⟩ := p
        exact ⟨h.1, h.2.1, ih h.2.2⟩

theorem forEachSerial_eq {S : Support τ} {ax : List (τ × List U64)} (hg : Grid S ax)
    (f : Elem τ → σ → Res σ) :
    ∀ (post pre : List (τ × List U64)) (is : List I64) (e : Elem τ) (s : σ),
      ax = pre ++ post → Picks pre is e →
      forEachSerial S f (post.map (fun a => BitVec.ofNat 64 a.2.length)) is s
        = (cart post).foldlM (fun s e' => f (e ++ e') s) s := by
  intro post
  induction post with
  | nil =>
    intro pre is e s hax hp
    simp only [List.append_nil] at hax
    simp only [List.map_nil, forEachSerial, leaf, hg.tags, cart]
    rw [hg.pick is e (hax ▸ hp)]
    simp [bind_ok']
  | cons a post ih =>
    intro pre is e s hax hp
    obtain ⟨t, l⟩ := a
    have hl : l.length < 2 ^ 63 := hg.small (t, l) (by simp [hax])
    simp only [List.map_cons, forEachSerial, cart]
    rw [loop_zero, toInt_ofNat_small hl, Int.toNat_natCast, foldlM_flatMap]
    refine foldlM_range l _ _ ?_ s
    intro i x s hx
    have hi : i < l.length := (List.getElem?_eq_some_iff.1 hx).1
    rw [ih (pre ++ [(t, l)]) _ (e ++ [(t, x)]) s (by simp [hax])
      (picks_append hp (by rw [toNat_ofInt_small (by omega)]; exact hx)), foldlM_map']
    simp

theorem vals_lengths (ax : List (τ × List U64)) :
    vals (ax.map (fun a => (a.1, (BitVec.ofNat 64 a.2.length : I64))))
      = ax.map (fun a => BitVec.ofNat 64 a.2.length) := by
  simp [vals, Function.comp_def]

/-- The loop is the fold of the functor over the lexicographic enumeration. -/
theorem forEach_eq {S : Support τ} {ax : List (τ × List U64)} (hg : Grid S ax)
    (f : Elem τ → σ → Res σ) (s : σ) :
    forEach S f s = Res.noexcept ((cart ax).foldlM (fun s e => f e s) s) := by
  simp only [forEach, hg.extents, Res.ok_bind, vals_lengths]
  rw [forEachSerial_eq hg f ax [] [] [] s rfl trivial]
  simp

end Support

/-! ## The three kinds of domains are grids -/

/-- Axes of a contiguous domain. -/
def Spec.axes (d : Dom τ) : List (τ × List U64) := d.map (fun p => (p.1, axis p.2.1 p.2.2))

/-- The progression `b, b + s, ..., b + (n-1) s`. -/
def Spec.progression (b : U64) (n s : I64) : List U64 :=
  (List.range n.toInt.toNat).map (fun k : Nat => BitVec.ofInt 64 (b.toNat + (k : Int) * s.toInt))

/-- Axes of a strided domain. -/
def Spec.saxes (d : SDom τ) : List (τ × List U64) := d.map (fun p => (p.1, progression p.2.1 p.2.2.1 p.2.2.2))

theorem picks_get {ax : List (τ × List U64)} {is : List I64} {e : Elem τ} (h : Picks ax is e)
    (hnd : (ax.map Prod.fst).Nodup) :
    tags ((ax.map Prod.fst).zip is) = ax.map Prod.fst ∧ tags e = ax.map Prod.fst ∧
    ∀ q l, get q ax = .ok l → ∃ (i : I64) (x : U64), get q ((ax.map Prod.fst).zip is) = .ok i ∧
      get q e = .ok x ∧ l[i.toNat]? = some x := by
  induction ax generalizing is e with
  | nil =>
    cases is <;> cases e <;> simp only [Picks] at h
    exact ⟨rfl, rfl, by simp⟩
  | cons a ax ih =>
    obtain ⟨t, l⟩ := a
    cases is with
    | nil => cases e <;> simp only [Picks] at h
    | cons i is =>
      cases e with
      | nil => simp only [Picks] at h
      | cons p e =>
        obtain ⟨u, x⟩ := p
        obtain ⟨rfl, h1, h2⟩ := h
        simp only [List.map_cons, List.nodup_cons] at hnd
        obtain ⟨a1, a2, a3⟩ := ih h2 hnd.2
        refine ⟨by simp [a1], by simp [a2], ?_⟩
        intro q m hm
        simp only [List.map_cons, List.zip_cons_cons, get_cons] at hm ⊢
        split at hm
        · rename_i hq
          injection hm with hm
          subst hm
          exact ⟨i, x, by simp [hq], by simp [hq], h1⟩
        · rename_i hq
          obtain ⟨j, y, y1, y2, y3⟩ := a3 q m hm
          exact ⟨j, y, by rw [if_neg hq]; exact y1, by rw [if_neg hq]; exact y2, y3⟩

theorem map_fst_eq_tags {α : Type} (x : Tup τ α) : x.map Prod.fst = tags x := rfl

theorem grid_sparse {d : SpDom τ} (hnd : (tags d).Nodup) (hl : ∀ p ∈ d, p.2.length < 2 ^ 63) :
    Grid d.support d where
  tags := rfl
  small := hl
  extents := rfl
  pick := by
    intro is e h
    obtain ⟨h1, h2, h3⟩ := picks_get h hnd
    obtain ⟨r, r1, r2, r3⟩ := SpDom.at_ok (d := d) hnd (v := (d.map Prod.fst).zip is) h1 (by
      intro q l hl
      obtain ⟨i, x, a, _, c⟩ := h3 q l hl
      exact ⟨i, a, (List.getElem?_eq_some_iff.1 c).1⟩)
    simp only [SpDom.support]
    rw [r1]; congr 1
    refine ext_get' (by rw [r2, h2]; rfl) (by rw [r2]; exact hnd) ?_
    intro q y hy
    obtain ⟨l, hl⟩ := get_ok_iff_mem_tags.2 (r2 ▸ mem_tags_of_get hy)
    obtain ⟨i, x, a, b, c⟩ := h3 q l hl
    obtain ⟨z, z1, z2⟩ := r3 q l i hl a
    rw [hy] at z1; injection z1 with z1; subst z1
    rw [c] at z2; injection z2 with z2; subst z2
    exact b

theorem tags_axes (d : Dom τ) : (axes d).map Prod.fst = tags d :=
  tags_map_snd (fun p : U64 × U64 => axis p.1 p.2) d

theorem tags_saxes (d : SDom τ) : (saxes d).map Prod.fst = tags d :=
  tags_map_snd (fun p : U64 × I64 × I64 => progression p.1 p.2.1 p.2.2) d

theorem grid_dom {d : Dom τ} (hd : Valid d) : Grid d.support (axes d) where
  tags := (tags_axes d).symm
  small := by
    intro a ha
    obtain ⟨⟨t, b, e⟩, hm, rfl⟩ := List.mem_map.1 ha
    have := Dom.valid_get hd (get_of_mem hd.1 hm)
    simp only [length_axis]; omega
  extents := by
    obtain ⟨n, h1, h2, h3⟩ := Dom.extents_ok d
    simp only [Dom.support]
    rw [h1]; congr 1
    have ht : tags ((axes d).map (fun a => (a.1, (BitVec.ofNat 64 a.2.length : I64)))) = tags d := by
      rw [tags_map_snd (fun l : List U64 => (BitVec.ofNat 64 l.length : I64)) (axes d)]
      exact tags_axes d
    refine ext_get' (by rw [h2, ht]) (by rw [h2]; exact hd.1) ?_
    intro q y hy
    obtain ⟨⟨b, e⟩, hb⟩ := get_ok_iff_mem_tags.2 (h2 ▸ mem_tags_of_get hy)
    rw [h3 q b e hb] at hy; injection hy with hy; subst hy
    rw [get_map_snd q (fun l : List U64 => (BitVec.ofNat 64 l.length : I64)) (axes d), axes,
      get_map_snd q (fun p : U64 × U64 => axis p.1 p.2) d, hb]
    simp only [Res.map_ok, length_axis]
    congr 1
    have := Dom.valid_get hd hb
    apply BitVec.eq_of_toNat_eq
    have hlt := e.isLt
    rw [BitVec.toNat_ofNat, BitVec.toNat_sub]; omega
  pick := by
    intro is e h
    obtain ⟨h1, h2, h3⟩ := picks_get h (by rw [tags_axes]; exact hd.1)
    rw [tags_axes] at h1 h2 h3 ⊢
    obtain ⟨r, r1, r2, r3⟩ := Dom.at_ok hd.1 (v := (tags d).zip is) h1
    simp only [Dom.support]
    rw [r1]; congr 1
    refine ext_get' (by rw [r2, h2]) (by rw [r2]; exact hd.1) ?_
    intro q y hy
    obtain ⟨⟨b, f⟩, hb⟩ := get_ok_iff_mem_tags.2 (r2 ▸ mem_tags_of_get hy)
    have hax : get q (axes d) = .ok (axis b f) := by
      rw [axes, get_map_snd q (fun p : U64 × U64 => axis p.1 p.2) d, hb]; rfl
    obtain ⟨i, x, a, c, hx⟩ := h3 q _ hax
    rw [r3 q b f i hb a] at hy; injection hy with hy; subst hy
    have hi : i.toNat < f.toNat - b.toNat := by
      rw [← length_axis]; exact (List.getElem?_eq_some_iff.1 hx).1
    rw [axis_getElem? hi] at hx; injection hx with hx; subst hx
    rw [c]; simp

theorem length_progression (b : U64) (n s : I64) : (progression b n s).length = n.toInt.toNat := by
  simp [progression]

theorem progression_getElem? {b : U64} {n s : I64} {k : Nat} (h : k < n.toInt.toNat) :
    (progression b n s)[k]? = some (BitVec.ofInt 64 (b.toNat + k * s.toInt)) := by
  simp [progression, h]

theorem get_saxes {q : τ} {d : SDom τ} {b : U64} {n s : I64} (h : get q d = .ok (b, n, s)) :
    get q (saxes d) = .ok (progression b n s) := by
  rw [saxes, get_map_snd q (fun p : U64 × I64 × I64 => progression p.1 p.2.1 p.2.2) d, h]; rfl

theorem get_axes {q : τ} {d : Dom τ} {b e : U64} (h : get q d = .ok (b, e)) :
    get q (axes d) = .ok (axis b e) := by
  rw [axes, get_map_snd q (fun p : U64 × U64 => axis p.1 p.2) d, h]; rfl

/-- Value of the terms of a progression of a valid strided domain. -/
theorem progression_value {q : τ} {d : SDom τ} {b : U64} {n s : I64} (hd : SValid d)
    (h : get q d = .ok (b, n, s)) {k : Int} (h0 : 0 ≤ k) (hk : k < n.toInt) :
    ((BitVec.ofInt 64 (b.toNat + k * s.toInt) : U64).toNat : Int) = b.toNat + k * s.toInt := by
  obtain ⟨v1, v2, v3, v4⟩ := SDom.svalid_get hd h
  have h1 := Int.mul_nonneg h0 (show 0 ≤ s.toInt by omega)
  have h2 := Int.mul_le_mul_of_nonneg_right (show k ≤ n.toInt by omega) (show 0 ≤ s.toInt by omega)
  rw [BitVec.toNat_ofInt]; omega

theorem mem_progression {q : τ} {d : SDom τ} {b : U64} {n s : I64} (hd : SValid d)
    (h : get q d = .ok (b, n, s)) {x : U64} :
    x ∈ progression b n s ↔ ∃ k : Int, 0 ≤ k ∧ k < n.toInt ∧ (x.toNat : Int) = b.toNat + k * s.toInt := by
  simp only [progression, List.mem_map, List.mem_range]
  constructor
  · rintro ⟨k, hk, rfl⟩
    exact ⟨k, by omega, by omega, progression_value hd h (by omega) (by omega)⟩
  · rintro ⟨k, h0, hk, hx⟩
    refine ⟨k.toNat, by omega, ?_⟩
    rw [Int.toNat_of_nonneg h0]
    apply BitVec.eq_of_toNat_eq
    have := progression_value hd h h0 hk
    omega

theorem progression_sorted {q : τ} {d : SDom τ} {b : U64} {n s : I64} (hd : SValid d)
    (h : get q d = .ok (b, n, s)) : (progression b n s).Pairwise (fun x y => x.toNat < y.toNat) := by
  obtain ⟨v1, v2, v3, v4⟩ := SDom.svalid_get hd h
  simp only [progression, List.pairwise_map]
  refine (List.pairwise_lt_range (n := n.toInt.toNat)).imp_of_mem ?_
  intro i j hi hj hij
  rw [List.mem_range] at hi hj
  have e1 := progression_value hd h (k := i) (by omega) (by omega)
  have e2 := progression_value hd h (k := j) (by omega) (by omega)
  have := Int.mul_lt_mul_of_pos_right (show (i : Int) < j by omega) (show 0 < s.toInt by omega)
  omega

theorem grid_strided {d : SDom τ} (hd : SValid d) : Grid d.support (saxes d) where
  tags := (tags_saxes d).symm
  small := by
    intro a ha
    obtain ⟨⟨t, b, n, s⟩, hm, rfl⟩ := List.mem_map.1 ha
    have := toInt_range n
    simp only [length_progression]; omega
  extents := by
    simp only [SDom.support]
    congr 1
    have ht : tags ((saxes d).map (fun a => (a.1, (BitVec.ofNat 64 a.2.length : I64)))) = tags d := by
      rw [tags_map_snd (fun l : List U64 => (BitVec.ofNat 64 l.length : I64)) (saxes d)]
      exact tags_saxes d
    refine ext_get' (by rw [SDom.tags_extents, ht]) (by rw [SDom.tags_extents]; exact hd.1) ?_
    intro q y hy
    obtain ⟨⟨b, n, s⟩, hb⟩ := get_ok_iff_mem_tags.2 (SDom.tags_extents d ▸ mem_tags_of_get hy)
    rw [SDom.get_extents_ok hb] at hy; injection hy with hy; subst hy
    rw [get_map_snd q (fun l : List U64 => (BitVec.ofNat 64 l.length : I64)) (saxes d), get_saxes hb]
    simp only [Res.map_ok, length_progression]
    congr 1
    have h1 := (SDom.svalid_get hd hb).1
    have h2 := SDom.toNat_of_nonneg h1
    apply BitVec.eq_of_toNat_eq
    rw [BitVec.toNat_ofNat]
    have := n.isLt
    omega
  pick := by
    intro is e h
    obtain ⟨h1, h2, h3⟩ := picks_get h (by rw [tags_saxes]; exact hd.1)
    rw [tags_saxes] at h1 h2 h3 ⊢
    have hpos : ∀ q b n s i, get q d = .ok (b, n, s) → get q ((tags d).zip is) = .ok i →
        i.toInt = i.toNat ∧ i.toNat < n.toInt.toNat := by
      intro q b n s i hb hi
      obtain ⟨j, x, a, c, hx⟩ := h3 q _ (get_saxes hb)
      rw [hi] at a; injection a with a; subst a
      have hlt : i.toNat < n.toInt.toNat := by
        rw [← length_progression b n s]; exact (List.getElem?_eq_some_iff.1 hx).1
      have := toInt_range n
      have h6 := BitVec.toInt_eq_toNat_cond i
      exact ⟨by split at h6 <;> omega, hlt⟩
    obtain ⟨r, r1, r2, r3⟩ := SDom.at_ok hd (v := (tags d).zip is) h1 (by
      intro q hq
      obtain ⟨⟨b, n, s⟩, hb⟩ := get_ok_iff_mem_tags.2 hq
      obtain ⟨i, hi⟩ := get_ok_iff_mem_tags.2 (show q ∈ tags ((tags d).zip is) by rw [h1]; exact hq)
      have := hpos q b n s i hb hi
      rw [disp_ok hi, SDom.count_ok hb]; omega)
    simp only [SDom.support]
    rw [r1]; congr 1
    refine ext_get' (by rw [r2, h2]) (by rw [r2]; exact hd.1) ?_
    intro q y hy
    have hq : q ∈ tags d := r2 ▸ mem_tags_of_get hy
    obtain ⟨⟨b, n, s⟩, hb⟩ := get_ok_iff_mem_tags.2 hq
    obtain ⟨i, x, a, c, hx⟩ := h3 q _ (get_saxes hb)
    have hp := hpos q b n s i hb a
    rw [progression_getElem? hp.2] at hx; injection hx with hx
    have := r3 q hq
    rw [idx_ok hy, SDom.first_ok hb, SDom.step_ok hb, disp_ok a, hp.1] at this
    rw [c]; congr 1
    rw [← hx]
    apply BitVec.eq_of_toNat_eq
    have hv := progression_value hd hb (k := i.toNat) (by omega) (by omega)
    omega

end DDC
