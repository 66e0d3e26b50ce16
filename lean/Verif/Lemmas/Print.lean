import Verif.Model.Print
import Verif.Spec.Print
import Verif.Lemmas.SpanAccess
import Verif.Lemmas.Submdspan
import Verif.Lemmas.Copy

/-!
# Lemmas on printing
-/

namespace DDC.PrintL

open Print Spec Spec.Print Tup

variable {α β γ τ : Type}

/-! ## Texts -/

theorem join_cons_cons (sep a b : List Char) (l : List (List Char)) :
    join sep (a :: b :: l) = a ++ sep ++ join sep (b :: l) := by
  simp [join, List.intersperse]

theorem join_append {sep : List Char} {l l' : List (List Char)} (h : l ≠ []) (h' : l' ≠ []) :
    join sep (l ++ l') = join sep l ++ sep ++ join sep l' := by
  induction l with
  | nil => contradiction
  | cons a l ih =>
    cases l with
    | nil =>
      cases l' with
      | nil => contradiction
      | cons b l' => rw [List.singleton_append, join_cons_cons]; simp [join]
    | cons b l =>
      rw [List.cons_append, List.cons_append, join_cons_cons, join_cons_cons, ← List.cons_append, ih (by simp)]
      simp

theorem parts_join {sep : List Char} (h : γ → List Char) (xs : List γ) (b lim : Nat) (hl : lim + 1 = b + xs.length ∨ xs = []) :
    ((xs.zipIdx b).map (fun p => h p.1 ++ if p.2 < lim then sep else [])).flatten = join sep (xs.map h) := by
  induction xs generalizing b with
  | nil => simp [join]
  | cons x xs ih =>
    rw [List.zipIdx_cons, List.map_cons, List.flatten_cons]
    have hl : lim + 1 = b + (x :: xs).length := by rcases hl with h | h; exact h; cases h
    cases xs with
    | nil =>
      have : ¬ b < lim := by simp at hl; omega
      simp [join, this]
    | cons y xs =>
      rw [ih (b + 1) (.inl (by simp at hl ⊢; omega)), List.map_cons, List.map_cons, List.map_cons, join_cons_cons]
      have : b < lim := by simp at hl; omega
      simp [this]

theorem parts_all {sep : List Char} (h : γ → List Char) (xs : List γ) (b lim : Nat) (hl : b + xs.length ≤ lim) :
    ((xs.zipIdx b).map (fun p => h p.1 ++ if p.2 < lim then sep else [])).flatten =
      (xs.map (fun x => h x ++ sep)).flatten := by
  induction xs generalizing b with
  | nil => simp
  | cons x xs ih =>
    simp only [List.length_cons] at hl
    rw [List.zipIdx_cons, List.map_cons, List.flatten_cons, ih (b + 1) (by omega), List.map_cons, List.flatten_cons]
    have : b < lim := by omega
    simp [this]

theorem flatten_sep (sep : List Char) (l : List (List Char)) {l' : List (List Char)} (h' : l' ≠ []) :
    (l.map (fun x => x ++ sep)).flatten ++ join sep l' = join sep (l ++ l') := by
  induction l with
  | nil => simp
  | cons a l ih =>
    rw [List.map_cons, List.flatten_cons, List.append_assoc, ih, List.cons_append]
    cases hl : l ++ l' with
    | nil => simp at hl; exact absurd hl.2 h'
    | cons b m => rw [join_cons_cons]

/-! ## Loops -/

theorem mapM_upTo {g : U64 → Res β} {h : Nat → γ → β} (xs : List γ) (b : U64) (hb : b.toNat + xs.length < 2 ^ 64)
    (hg : ∀ k x, xs[k]? = some x → g (BitVec.ofNat 64 (b.toNat + k)) = .ok (h (b.toNat + k) x)) :
    (upTo b xs.length).mapM g = .ok ((xs.zipIdx b.toNat).map (fun p => h p.2 p.1)) := by
  induction xs generalizing b with
  | nil => rfl
  | cons x xs ih =>
    simp only [List.length_cons] at hb ⊢
    have h1 : (b + 1).toNat = b.toNat + 1 := by
      rw [BitVec.toNat_add]
      show (b.toNat + 1) % 2 ^ 64 = _
      omega
    have h0 := hg 0 x (by simp)
    rw [Nat.add_zero, BitVec.ofNat_toNat, BitVec.setWidth_eq] at h0
    rw [upTo, List.mapM_cons, h0, Res.ok_bind, ih (b + 1) (by omega)]
    · rw [Res.ok_bind, Res.pure_eq, List.zipIdx_cons, List.map_cons, h1]
    · intro k y hk
      have := hg (k + 1) y (by simpa using hk)
      rw [h1]
      rw [show b.toNat + (k + 1) = b.toNat + 1 + k by omega] at this
      exact this

theorem foldlM_upTo {f : U64 → Res U64} {h : γ → Nat} (xs : List γ) (b ret : U64) (hb : b.toNat + xs.length < 2 ^ 64)
    (hg : ∀ k x, xs[k]? = some x → ∃ w, f (BitVec.ofNat 64 (b.toNat + k)) = .ok w ∧ w.toNat = h x) :
    ∃ r, (upTo b xs.length).foldlM (fun ret i => do
      let w ← f i
      pure (umax ret w)) ret = .ok r ∧ r.toNat = max ret.toNat (largest (xs.map h)) := by
  induction xs generalizing b ret with
  | nil => exact ⟨ret, rfl, by simp [largest]⟩
  | cons x xs ih =>
    simp only [List.length_cons] at hb ⊢
    have h1 : (b + 1).toNat = b.toNat + 1 := by
      rw [BitVec.toNat_add]
      show (b.toNat + 1) % 2 ^ 64 = _
      omega
    obtain ⟨w, h0, hw⟩ := hg 0 x (by simp)
    rw [Nat.add_zero, BitVec.ofNat_toNat, BitVec.setWidth_eq] at h0
    obtain ⟨r, r1, r2⟩ := ih (b + 1) (umax ret w) (by omega) (by
      intro k y hk
      have := hg (k + 1) y (by simpa using hk)
      rw [h1]
      rw [show b.toNat + (k + 1) = b.toNat + 1 + k by omega] at this
      exact this)
    refine ⟨r, ?_, ?_⟩
    · rw [upTo, List.foldlM_cons, h0]
      simp only [Res.ok_bind, Res.pure_eq]
      exact r1
    · rw [r2, List.map_cons]
      have : (umax ret w).toNat = max ret.toNat w.toNat := by
        rw [umax]
        split
        · rename_i hlt
          have : ret.toNat < w.toNat := hlt
          omega
        · rename_i hlt
          have : ¬ ret.toNat < w.toNat := hlt
          omega
      rw [this, hw]
      simp only [largest, List.foldr_cons]
      omega

theorem largest_append (l l' : List Nat) : largest (l ++ l') = max (largest l) (largest l') := by
  induction l with
  | nil => simp [largest]
  | cons a l ih =>
    simp only [largest, List.cons_append, List.foldr_cons] at ih ⊢
    omega

theorem largest_flatMap (l : List γ) (f : γ → List Nat) : largest (l.flatMap f) = largest (l.map (fun x => largest (f x))) := by
  induction l with
  | nil => rfl
  | cons a l ih =>
    rw [List.flatMap_cons, largest_append, ih]
    rfl

theorem le_largest {l : List Nat} {n : Nat} (h : n ∈ l) : n ≤ largest l := by
  induction l with
  | nil => cases h
  | cons a l ih =>
    simp only [largest, List.foldr_cons] at ih ⊢
    rcases List.mem_cons.1 h with rfl | h
    · omega
    · have := ih h; omega

/-! ## Arrays -/

/-- Array `m` of buffer `buf` holds, at the positions of element `e` in the axes, the value `f e`. -/
structure Holds (mem : Mem α) (buf : Nat) (m : MDSpan) (ax : List (τ × List U64)) (f : Elem τ → α) : Prop where
  dims : (m.dims.map Prod.fst).map BitVec.toNat = ax.map (fun a => a.2.length)
  fits : Fits m
  value : ∀ is e, Picks ax is e → mem.read buf (m.off + offset m.dims is) = .ok (f e)

theorem Holds.extent {mem : Mem α} {buf : Nat} {m : MDSpan} {t : τ} {l : List U64} {ax : List (τ × List U64)}
    {f : Elem τ → α} (h : Holds mem buf m ((t, l) :: ax) f) : (extent0 m).toNat = l.length := by
  have := h.dims
  rw [extent0]
  cases hd : m.dims with
  | nil => rw [hd] at this; simp at this
  | cons d ds =>
    rw [hd] at this
    simp only [List.map_cons, List.cons.injEq] at this
    exact this.1

theorem Holds.sub {mem : Mem α} {buf : Nat} {m : MDSpan} {t : τ} {l : List U64} {ax : List (τ × List U64)}
    {f : Elem τ → α} (h : Holds mem buf m ((t, l) :: ax) f) {i : U64} {x : U64} (hi : l[i.toNat]? = some x) :
    ∃ s, subFirst m i ax.length = .ok s ∧ Holds mem buf s ax (fun e => f ((t, x) :: e)) := by
  have hd := h.dims
  obtain ⟨off, dims, cells⟩ := m
  cases dims with
  | nil => simp at hd
  | cons d ds =>
    obtain ⟨n, st⟩ := d
    simp only [List.map_cons, List.cons.injEq] at hd
    have hlen : ds.length = ax.length := by
      have := congrArg List.length hd.2
      simpa using this
    have hin : i.toNat < n.toNat := by rw [hd.1]; exact (List.getElem?_eq_some_iff.1 hi).1
    have hfull : ∀ ds : List (U64 × U64), MDSpan.SliceOK ds (List.replicate ds.length .full) := by
      intro ds
      induction ds with
      | nil => exact .nil
      | cons d ds ih => exact .cons rfl ih
    have hok : MDSpan.SliceOK ((n, st) :: ds) (.index i :: List.replicate ax.length .full) := by
      refine .cons ?_ (hlen ▸ hfull ds)
      exact decide_eq_true hin
    obtain ⟨s, s1, s2, s3, s4, s5⟩ := MDSpan.sub_ok h.fits hok
    have hsub : ∀ ds : List (U64 × U64), MDSpan.subDims ds (List.replicate ds.length .full) = ds := by
      intro ds
      induction ds with
      | nil => rfl
      | cons d ds ih => simp [List.replicate_succ, MDSpan.subDims, ih]
    have hdims : s.dims = ds := by
      rw [s3]
      simp only [MDSpan.subDims]
      rw [← hlen, hsub]
    refine ⟨s, s1, ⟨by rw [hdims]; exact hd.2, s4, ?_⟩⟩
    intro is e hp
    have hext : MDSpan.InExt s.dims is := by
      rw [MDSpan.inExt_iff, hdims, hd.2]
      exact picks_within hp
    obtain ⟨a1, a2⟩ := s5 is hext
    rw [a2]
    have hj : ∀ (is : List U64) (r : Nat), is.length = r → joinIdx (List.replicate r .full) is = is := by
      intro is
      induction is with
      | nil => intro r hr; simp at hr; subst hr; rfl
      | cons i is ih =>
        intro r hr
        obtain ⟨k, rfl⟩ : ∃ k, r = k + 1 := ⟨r - 1, by simp at hr; omega⟩
        rw [List.replicate_succ, joinIdx, ih k (by simpa using hr)]
    have hil : is.length = ax.length := by
      rw [← hlen, ← hdims]
      exact hext.length_eq.symm
    have : joinIdx (.index i :: List.replicate ax.length .full) is = i :: is := by
      rw [joinIdx, hj is _ hil]
    rw [this]
    exact h.value (i :: is) ((t, x) :: e) ⟨rfl, hi, hp⟩

theorem Holds.one {mem : Mem α} {buf : Nat} {m : MDSpan} {t : τ} {l : List U64}
    {f : Elem τ → α} (h : Holds mem buf m [(t, l)] f) {i : U64} {x : U64} (hi : l[i.toNat]? = some x) :
    elemAt mem buf m [i] = .ok (f [(t, x)]) := by
  have hp : Picks [(t, l)] [i] [(t, x)] := ⟨rfl, hi, trivial⟩
  have hext : MDSpan.InExt m.dims [i] := by
    rw [MDSpan.inExt_iff, h.dims]
    exact picks_within hp
  rw [elemAt, (MDSpan.access_ok hext h.fits).1, Res.ok_bind]
  exact h.value _ _ hp

theorem getElem_slice {l : List γ} {b n k : Nat} {x : γ} (h : ((l.drop b).take n)[k]? = some x) :
    l[b + k]? = some x ∧ k < n := by
  obtain ⟨h1, h2⟩ := List.getElem?_eq_some_iff.1 h
  rw [List.getElem_take, List.getElem_drop] at h2
  rw [List.length_take, List.length_drop] at h1
  exact ⟨List.getElem?_eq_some_iff.2 ⟨by omega, h2⟩, by omega⟩

theorem slice_length {l : List γ} {b e : Nat} (he : e ≤ l.length) : ((l.drop b).take (e - b)).length = e - b := by
  rw [List.length_take, List.length_drop]
  omega

theorem toNat_pred {n : U64} (h : 0 < n.toNat) : (n - 1).toNat = n.toNat - 1 := by
  rw [BitVec.toNat_sub]
  have : (1 : U64).toNat = 1 := rfl
  have := n.isLt
  omega

theorem baseCase_ok {fmt : α → Text} {mem : Mem α} {buf : Nat} {m : MDSpan} {t : τ} {l : List U64} {f : Elem τ → α}
    (h : Holds mem buf m [(t, l)] f) {w b e : U64} (hbe : b.toNat ≤ e.toNat) (he : e.toNat ≤ l.length)
    (hw : ∀ x ∈ (l.drop b.toNat).take (e.toNat - b.toNat), (fmt (f [(t, x)])).length ≤ w.toNat) :
    baseCaseDisplay fmt mem buf m w b e (extent0 m) = .ok
      (((((l.drop b.toNat).take (e.toNat - b.toNat)).zipIdx b.toNat).map (fun p =>
        justify w.toNat (fmt (f [(t, p.1)])) ++ if p.2 < l.length - 1 then [' '] else [])).flatten) := by
  have hx := h.extent
  set xs := (l.drop b.toNat).take (e.toNat - b.toNat) with hxs
  have hlen : xs.length = e.toNat - b.toNat := slice_length he
  rw [baseCaseDisplay, loop, ← hlen]
  have := mapM_upTo (g := fun i => do
      let x ← elemAt mem buf m [i]
      pure (displayAligned fmt x w ++ if i < extent0 m - 1 then [' '] else []))
    (h := fun k x => justify w.toNat (fmt (f [(t, x)])) ++ if k < l.length - 1 then [' '] else []) xs b
    (by have := e.isLt; omega) (by
      intro k x hk
      obtain ⟨k1, k2⟩ := getElem_slice hk
      have hlt : b.toNat + k < 2 ^ 64 := by have := e.isLt; omega
      have hn : (BitVec.ofNat 64 (b.toNat + k)).toNat = b.toNat + k := by
        rw [BitVec.toNat_ofNat]; omega
      rw [h.one (i := BitVec.ofNat 64 (b.toNat + k)) (x := x) (by rw [hn]; exact k1)]
      simp only [Res.ok_bind, Res.pure_eq]
      congr 2
      · have hwx := hw x (List.mem_of_getElem? hk)
        have hwl := w.isLt
        rw [displayAligned, justify, elementWidth, BitVec.toNat_sub, BitVec.toNat_ofNat]
        congr 2
        omega
      · have hpos : 0 < (extent0 m).toNat := by rw [hx]; have := (List.getElem?_eq_some_iff.1 k1).1; omega
        have : (BitVec.ofNat 64 (b.toNat + k) < extent0 m - 1) ↔ (b.toNat + k < l.length - 1) := by
          rw [BitVec.lt_def, hn, toNat_pred hpos, hx]
        simp only [this])
  rw [this]
  rfl

theorem recursive_ok {mem : Mem α} {buf : Nat} {m : MDSpan} {t : τ} {l : List U64} {ax : List (τ × List U64)}
    {f : Elem τ → α} (h : Holds mem buf m ((t, l) :: ax) f) {b e : U64} (hbe : b.toNat ≤ e.toNat)
    (he : e.toNat ≤ l.length) {printRec : MDSpan → Res Text} {g : U64 → Text} {level : Nat}
    (hg : ∀ x ∈ (l.drop b.toNat).take (e.toNat - b.toNat), ∀ s, Holds mem buf s ax (fun e => f ((t, x) :: e)) →
      printRec s = .ok (g x)) :
    recursiveDisplay printRec m ax.length level b e = .ok
      (join (List.replicate ax.length '\n' ++ List.replicate (level + 1) ' ')
        (((l.drop b.toNat).take (e.toNat - b.toNat)).map g)) := by
  set xs := (l.drop b.toNat).take (e.toNat - b.toNat) with hxs
  have hlen : xs.length = e.toNat - b.toNat := slice_length he
  rw [recursiveDisplay, loop, ← hlen]
  have := mapM_upTo (g := fun i => do
      let s ← subFirst m i ax.length
      let t ← printRec s
      pure (t ++ if i < e - 1 then List.replicate ax.length '\n' ++ align level else []))
    (h := fun k x => g x ++ if k < e.toNat - 1 then
      List.replicate ax.length '\n' ++ List.replicate (level + 1) ' ' else []) xs b
    (by have := e.isLt; omega) (by
      intro k x hk
      obtain ⟨k1, k2⟩ := getElem_slice hk
      have hlt : b.toNat + k < 2 ^ 64 := by have := e.isLt; omega
      have hn : (BitVec.ofNat 64 (b.toNat + k)).toNat = b.toNat + k := by
        rw [BitVec.toNat_ofNat]; omega
      obtain ⟨s, s1, s2⟩ := h.sub (i := BitVec.ofNat 64 (b.toNat + k)) (x := x) (by rw [hn]; exact k1)
      rw [s1]
      simp only [Res.ok_bind]
      rw [hg x (List.mem_of_getElem? hk) s s2]
      simp only [Res.ok_bind, Res.pure_eq]
      have hpos : 0 < e.toNat := by omega
      have : (BitVec.ofNat 64 (b.toNat + k) < e - 1) ↔ (b.toNat + k < e.toNat - 1) := by
        rw [BitVec.lt_def, hn, toNat_pred hpos]
      simp only [this, align])
  rw [this]
  simp only [Res.ok_bind, Res.pure_eq]
  congr 1
  refine parts_join g xs b.toNat (e.toNat - 1) ?_
  rcases Nat.eq_zero_or_pos xs.length with h0 | h0
  · exact .inr (List.length_eq_zero_iff.1 h0)
  · left; omega

theorem first_eq {l : List γ} {e : U64} : (l.drop (0 : U64).toNat).take (e.toNat - (0 : U64).toNat) = l.take e.toNat := by
  have : (0 : U64).toNat = 0 := rfl
  rw [this]
  simp

theorem last_eq {l : List γ} {n e : U64} (hn : n.toNat = l.length) (he : e.toNat ≤ l.length) :
    (n - e).toNat = l.length - e.toNat ∧
    (l.drop (n - e).toNat).take (n.toNat - (n - e).toNat) = l.drop (l.length - e.toNat) := by
  have h1 : (n - e).toNat = l.length - e.toNat := by
    rw [BitVec.toNat_sub]
    have := n.isLt
    omega
  refine ⟨h1, ?_⟩
  rw [h1, hn, List.take_of_length_le]
  rw [List.length_drop]

/-- What is printed. -/
theorem printImpl_ok {fmt : α → Text} {mem : Mem α} {buf : Nat} {o : Options} (ho : o.edgeitems.toNat < o.threshold.toNat / 2)
    {w : U64} (ax : List (τ × List U64)) {m : MDSpan} {f : Elem τ → α} (h : Holds mem buf m ax f) (level : Nat)
    (hw : ax ≠ [] → ∀ e ∈ shownElems o.threshold.toNat o.edgeitems.toNat ax, (fmt (f e)).length ≤ w.toNat) :
    printImpl fmt o mem buf ax.length m level w =
      .ok (render o.threshold.toNat o.edgeitems.toNat w.toNat level ax (fun e => fmt (f e))) := by
  induction ax generalizing m f level with
  | nil =>
    have h0 := h.value [] [] trivial
    have hd := h.dims
    have : m.dims = [] := by simpa using hd
    rw [this] at h0
    have h0 : mem.read buf m.off = .ok (f []) := h0
    simp only [List.length_nil, printImpl, h0, Res.ok_bind, render, Res.pure_eq]
  | cons a ax ih =>
    obtain ⟨t, l⟩ := a
    have hx := h.extent
    have hlt : (extent0 m < o.threshold) ↔ l.length < o.threshold.toNat := by rw [BitVec.lt_def, hx]
    have hw := hw (by simp)
    have hshown : ∀ x, x ∈ shown o.threshold.toNat o.edgeitems.toNat l →
        ∀ e ∈ shownElems o.threshold.toNat o.edgeitems.toNat ax, (fmt (f ((t, x) :: e))).length ≤ w.toNat := by
      intro x hx e he
      refine hw _ ?_
      simp only [shownElems, List.map_cons, cart, List.mem_flatMap, List.mem_map]
      exact ⟨x, hx, e, he, rfl⟩
    have hfirst := first_eq (l := l) (e := o.edgeitems)
    have hall : (l.drop (0 : U64).toNat).take ((extent0 m).toNat - (0 : U64).toNat) = l := by
      rw [first_eq, hx, List.take_length]
    cases ax with
    | nil =>
      have hw1 : ∀ x ∈ shown o.threshold.toNat o.edgeitems.toNat l, (fmt (f [(t, x)])).length ≤ w.toNat :=
        fun x hx => hshown x hx [] (by simp [shownElems, cart])
      simp only [List.length_cons, List.length_nil, Nat.zero_add, printImpl, render]
      by_cases hc : l.length < o.threshold.toNat
      · rw [shown, if_pos hc] at hw1
        rw [if_pos (hlt.2 hc), baseCase_ok h (Nat.zero_le _) (by rw [hx]) (by rw [hall]; exact hw1), Res.ok_bind, hall]
        rw [row, if_pos hc]
        have := parts_join (sep := [' ']) (fun x => justify w.toNat (fmt (f [(t, x)]))) l 0 (l.length - 1) (by
          rcases Nat.eq_zero_or_pos l.length with h0 | h0
          · exact .inr (List.length_eq_zero_iff.1 h0)
          · left; omega)
        have z : (0 : U64).toNat = 0 := rfl
        rw [z, this]
        rfl
      · have hle : o.edgeitems.toNat ≤ l.length := by omega
        obtain ⟨e1, e2⟩ := last_eq hx hle
        rw [shown, if_neg hc] at hw1
        rw [if_neg (fun h => hc (hlt.1 h)), baseCase_ok h (b := 0) (e := o.edgeitems) (Nat.zero_le _) hle
            (by rw [hfirst]; exact fun x hx => hw1 x (List.mem_append_left _ hx)), Res.ok_bind,
          baseCase_ok h (b := extent0 m - o.edgeitems) (e := extent0 m) (by rw [e1, hx]; omega) (by rw [hx])
            (by rw [e2]; exact fun x hx => hw1 x (List.mem_append_right _ hx)), Res.ok_bind, hfirst, e2, e1]
        rw [row, if_neg hc]
        have z : (0 : U64).toNat = 0 := rfl
        have p1 := parts_all (sep := [' ']) (fun x => justify w.toNat (fmt (f [(t, x)]))) (l.take o.edgeitems.toNat) 0
          (l.length - 1) (by rw [List.length_take]; omega)
        have p2 := parts_join (sep := [' ']) (fun x => justify w.toNat (fmt (f [(t, x)])))
          (l.drop (l.length - o.edgeitems.toNat)) (l.length - o.edgeitems.toNat) (l.length - 1) (by
            rw [List.length_drop]
            rcases Nat.eq_zero_or_pos o.edgeitems.toNat with h0 | h0
            · right; rw [h0, Nat.sub_zero, List.drop_length]
            · left; omega)
        rw [z, p1, p2, Res.pure_eq]
        congr 1
        by_cases h0 : o.edgeitems.toNat = 0
        · rw [if_pos h0, h0]
          simp [join]
        · rw [if_neg h0]
          have hne : l.drop (l.length - o.edgeitems.toNat) ≠ [] := by
            intro hd
            have := congrArg List.length hd
            rw [List.length_drop, List.length_nil] at this
            omega
          have q := flatten_sep [' '] ((l.take o.edgeitems.toNat).map (fun x => justify w.toNat (fmt (f [(t, x)]))) ++
            ["...".toList]) (l' := (l.drop (l.length - o.edgeitems.toNat)).map
              (fun x => justify w.toNat (fmt (f [(t, x)])))) (by simpa using hne)
          rw [← q]
          simp [List.map_map, Function.comp_def]
    | cons a ax =>
      simp only [List.length_cons, printImpl, render]
      have hrec : ∀ x ∈ shown o.threshold.toNat o.edgeitems.toNat l, ∀ s,
          Holds mem buf s (a :: ax) (fun e => f ((t, x) :: e)) →
          printImpl fmt o mem buf (a :: ax).length s (level + 1) w = .ok (render o.threshold.toNat o.edgeitems.toNat
            w.toNat (level + 1) (a :: ax) (fun e => fmt (f ((t, x) :: e)))) := by
        intro x hx s hs
        exact ih hs (level + 1) (fun _ => hshown x hx)
      by_cases hc : l.length < o.threshold.toNat
      · rw [shown, if_pos hc] at hrec
        have r := recursive_ok h (b := 0) (e := extent0 m) (level := level) (Nat.zero_le _) (by rw [hx])
          (printRec := fun s => printImpl fmt o mem buf (a :: ax).length s (level + 1) w) (by rw [hall]; exact hrec)
        rw [hall] at r
        simp only [List.length_cons] at r
        rw [if_pos (hlt.2 hc), r, Res.ok_bind, row, if_pos hc]
        rfl
      · have hle : o.edgeitems.toNat ≤ l.length := by omega
        obtain ⟨e1, e2⟩ := last_eq hx hle
        rw [shown, if_neg hc] at hrec
        have r1 := recursive_ok h (b := 0) (e := o.edgeitems) (level := level) (Nat.zero_le _) hle
          (printRec := fun s => printImpl fmt o mem buf (a :: ax).length s (level + 1) w)
          (by rw [hfirst]; exact fun x hx => hrec x (List.mem_append_left _ hx))
        have r2 := recursive_ok h (b := extent0 m - o.edgeitems) (e := extent0 m) (level := level)
          (by rw [e1, hx]; omega) (by rw [hx])
          (printRec := fun s => printImpl fmt o mem buf (a :: ax).length s (level + 1) w)
          (by rw [e2]; exact fun x hx => hrec x (List.mem_append_right _ hx))
        rw [hfirst] at r1
        rw [e2] at r2
        simp only [List.length_cons] at r1 r2
        rw [if_neg (fun h => hc (hlt.1 h)), r1, Res.ok_bind, r2, Res.ok_bind, row, if_neg hc, Res.pure_eq]
        congr 1
        by_cases h0 : o.edgeitems.toNat = 0
        · rw [if_pos h0, h0]
          simp [join, align]
        · rw [if_neg h0]
          have hne : l.drop (l.length - o.edgeitems.toNat) ≠ [] := by
            intro hd
            have := congrArg List.length hd
            rw [List.length_drop, List.length_nil] at this
            omega
          have hne2 : l.take o.edgeitems.toNat ≠ [] := by
            intro hd
            have := congrArg List.length hd
            rw [List.length_take, List.length_nil] at this
            omega
          rw [join_append (by simp) (by simpa using hne), join_append (by simpa using hne2) (by simp)]
          simp [join, align]

/-- The width. -/
theorem findLargest_ok {fmt : α → Text} {mem : Mem α} {buf : Nat} {o : Options} (ho : o.edgeitems.toNat < o.threshold.toNat / 2)
    (ax : List (τ × List U64)) {m : MDSpan} {f : Elem τ → α} (h : Holds mem buf m ax f)
    (hf : ∀ e, (fmt (f e)).length < 2 ^ 64) :
    ∃ w, findLargest fmt o mem buf ax.length m = .ok w ∧
      (ax ≠ [] → w.toNat = largest ((shownElems o.threshold.toNat o.edgeitems.toNat ax).map
        (fun e => (fmt (f e)).length))) := by
  induction ax generalizing m f with
  | nil => exact ⟨0, rfl, fun h => absurd rfl h⟩
  | cons a ax ih =>
    obtain ⟨t, l⟩ := a
    have hx := h.extent
    have hlt : (extent0 m < o.threshold) ↔ l.length < o.threshold.toNat := by rw [BitVec.lt_def, hx]
    -- one loop
    have hloop : ∀ (width : U64 → Res U64) (g : U64 → Nat),
        (∀ i x, l[i.toNat]? = some x → ∃ w, width i = .ok w ∧ w.toNat = g x) →
        ∀ ret b e : U64, b.toNat ≤ e.toNat → e.toNat ≤ l.length →
        ∃ r, maxLoop width ret b e = .ok r ∧
          r.toNat = max ret.toNat (largest (((l.drop b.toNat).take (e.toNat - b.toNat)).map g)) := by
      intro width g hg ret b e hbe he
      have hlen := slice_length (b := b.toNat) he
      generalize hxs : (l.drop b.toNat).take (e.toNat - b.toNat) = xs at hlen ⊢
      rw [maxLoop, loop, ← hlen]
      refine foldlM_upTo xs b ret (by have := e.isLt; omega) ?_
      intro k x hk
      rw [← hxs] at hk
      obtain ⟨k1, k2⟩ := getElem_slice hk
      refine hg _ _ ?_
      have hn : (BitVec.ofNat 64 (b.toNat + k)).toNat = b.toNat + k := by
        rw [BitVec.toNat_ofNat]; have := e.isLt; omega
      rw [hn]; exact k1
    have hloops : ∀ (width : U64 → Res U64) (g : U64 → Nat),
        (∀ i x, l[i.toNat]? = some x → ∃ w, width i = .ok w ∧ w.toNat = g x) →
        ∃ r, (if extent0 m < o.threshold then maxLoop width 0 0 (extent0 m)
          else do
            let ret ← maxLoop width 0 0 o.edgeitems
            maxLoop width ret (extent0 m - o.edgeitems) (extent0 m)) = .ok r ∧
          r.toNat = largest ((shown o.threshold.toNat o.edgeitems.toNat l).map g) := by
      intro width g hg
      have z : (0 : U64).toNat = 0 := rfl
      by_cases hc : l.length < o.threshold.toNat
      · obtain ⟨r, r1, r2⟩ := hloop width g hg 0 0 (extent0 m) (Nat.zero_le _) (by rw [hx])
        rw [first_eq, hx, List.take_length, z, Nat.zero_max] at r2
        exact ⟨r, by rw [if_pos (hlt.2 hc)]; exact r1, by rw [shown, if_pos hc]; exact r2⟩
      · have hle : o.edgeitems.toNat ≤ l.length := by omega
        obtain ⟨e1, e2⟩ := last_eq hx hle
        obtain ⟨r, r1, r2⟩ := hloop width g hg 0 0 o.edgeitems (Nat.zero_le _) hle
        obtain ⟨q, q1, q2⟩ := hloop width g hg r (extent0 m - o.edgeitems) (extent0 m) (by rw [e1, hx]; omega) (by rw [hx])
        rw [first_eq, z, Nat.zero_max] at r2
        rw [e2, r2] at q2
        refine ⟨q, by rw [if_neg (fun h => hc (hlt.1 h)), r1, Res.ok_bind]; exact q1, ?_⟩
        rw [shown, if_neg hc, List.map_append, largest_append, q2]
    have hspec : ∀ r : U64, r.toNat = largest ((shown o.threshold.toNat o.edgeitems.toNat l).map (fun x =>
          largest ((shownElems o.threshold.toNat o.edgeitems.toNat ax).map (fun e => (fmt (f ((t, x) :: e))).length)))) →
        r.toNat = largest ((shownElems o.threshold.toNat o.edgeitems.toNat ((t, l) :: ax)).map
          (fun e => (fmt (f e)).length)) := by
      intro r hr
      have e : shownElems o.threshold.toNat o.edgeitems.toNat ((t, l) :: ax) =
          (shown o.threshold.toNat o.edgeitems.toNat l).flatMap (fun x =>
            (shownElems o.threshold.toNat o.edgeitems.toNat ax).map (fun e => (t, x) :: e)) := rfl
      rw [hr, e, List.map_flatMap, largest_flatMap]
      simp only [List.map_map, Function.comp_def]
    cases ax with
    | nil =>
      obtain ⟨r, r1, r2⟩ := hloops (fun i => do
          let x ← elemAt mem buf m [i]
          pure (elementWidth fmt x)) (fun x => largest ([[]].map (fun e => (fmt (f ((t, x) :: e))).length))) (by
        intro i x hi
        refine ⟨elementWidth fmt (f [(t, x)]), by rw [h.one hi]; rfl, ?_⟩
        rw [elementWidth, BitVec.toNat_ofNat, Nat.mod_eq_of_lt (hf _)]
        simp [largest])
      exact ⟨r, r1, fun _ => hspec r r2⟩
    | cons a ax =>
      obtain ⟨r, r1, r2⟩ := hloops (fun i => do
          let s ← subFirst m i (a :: ax).length
          findLargest fmt o mem buf (a :: ax).length s)
          (fun x => largest ((shownElems o.threshold.toNat o.edgeitems.toNat (a :: ax)).map
            (fun e => (fmt (f ((t, x) :: e))).length))) (by
        intro i x hi
        obtain ⟨s, s1, s2⟩ := h.sub hi
        obtain ⟨w, w1, w2⟩ := ih s2 (fun e => hf _)
        exact ⟨w, by rw [s1]; exact w1, w2 (by simp)⟩)
      exact ⟨r, r1, fun _ => hspec r r2⟩

end DDC.PrintL
