import Verif.Lemmas.Scan
import Verif.Props.C10
import Verif.Props.C24

/-!
# C23  Parallel scans return prefix reductions for every chunking

The backend cuts each scanned line in consecutive blocks, runs every block once to get
its total and once more to write, the second runs being in any order (`LegalChoice`).
The transformed value of an element may depend on the cell of that element in the output
chunk (scan in place); for exclusive scans it must not, as the cell is overwritten before
it is read.
-/

namespace DDC.Props

open Tup Spec Scan

variable {τ : Type} [DecidableEq τ] {T : Type}

/-- `e` with its index along `q` replaced by `v`. -/
def setIdx (q : τ) (v : Nat) (e : Elem τ) : Elem τ :=
  e.map (fun p => if p.1 = q then (p.1, BitVec.ofNat 64 v) else p)

/-- The `n` elements obtained from `e` by moving along `q`, from index `a` upwards. -/
def run (q : τ) (a n : Nat) (e : Elem τ) : List (Elem τ) := (List.range n).map (fun i => setIdx q (a + i) e)

private theorem mapM_bind_ok {α β γ : Type} {f : α → Res β} {g : β → Res γ} {g' : β → γ} {l : List α} {r : List β}
    (h : l.mapM f = .ok r) (hg : ∀ b ∈ r, g b = .ok (g' b)) :
    l.mapM (fun a => f a >>= g) = .ok (r.map g') := by
  induction l generalizing r with
  | nil =>
    have : r = [] := (Res.ok.inj h).symm
    subst this; rfl
  | cons a l ih =>
    rw [List.mapM_cons] at h ⊢
    obtain ⟨y, h1, h⟩ := Res.bind_eq_ok.1 h
    obtain ⟨ys, h2, h⟩ := Res.bind_eq_ok.1 h
    have h : r = y :: ys := (Res.ok.inj h).symm
    subst h
    rw [h1, Res.ok_bind, hg y (by simp), Res.ok_bind, ih h2 (fun b hb => hg b (by simp [hb]))]
    rfl

/-- The element over `ts` with index `v` along `q` and the indices of `eb` elsewhere. -/
private def glue (q : τ) (ts : List τ) (eb : Elem τ) (v : U64) : Elem τ :=
  ts.map (fun t => (t, if t = q then v else BitVec.ofNat 64 (idx t eb)))

private theorem get_glue {q : τ} {ts : List τ} {eb : Elem τ} {v : U64} {t : τ} (ht : t ∈ ts) :
    get t (glue q ts eb v) = .ok (if t = q then v else BitVec.ofNat 64 (idx t eb)) := by
  induction ts with
  | nil => simp at ht
  | cons u ts ih =>
    simp only [glue, List.map_cons, get_cons]
    by_cases h : t = u
    · subst h; simp
    · simp only [if_neg h]; exact ih (by simpa [h] using ht)

private theorem tags_glue (q : τ) (ts : List τ) (eb : Elem τ) (v : U64) : tags (glue q ts eb v) = ts := by
  simp [glue, tags, Function.comp_def]

private theorem get_setIdx {q t : τ} {v : Nat} {e : Elem τ} {x : U64} (h : get t e = .ok x) :
    get t (setIdx q v e) = .ok (if t = q then BitVec.ofNat 64 v else x) := by
  induction e with
  | nil => simp at h
  | cons p e ih =>
    obtain ⟨u, y⟩ := p
    simp only [get_cons] at h
    simp only [setIdx, List.map_cons]
    by_cases hu : t = u
    · subst hu
      rw [if_pos rfl] at h
      injection h with h; subst h
      by_cases hq : t = q <;> simp [hq]
    · rw [if_neg hu] at h
      have := ih h
      rw [setIdx] at this
      by_cases hq : u = q
      · rw [if_pos hq, get_cons, if_neg hu]; exact this
      · rw [if_neg hq, get_cons, if_neg hu]; exact this

private theorem tags_setIdx (q : τ) (v : Nat) (e : Elem τ) : tags (setIdx q v e) = tags e := by
  simp only [setIdx, tags, List.map_map]
  refine List.map_congr_left ?_
  intro p _
  simp only [Function.comp_apply]; split <;> rfl

/-- Closed form of the whole algorithm: the state transformer of one batch element. -/
private theorem transformScan_eq (kind : Kind) (k : KReducer T) (op : T → T → T) (f : (Elem τ → T) → Elem τ → T)
    (choice : Elem τ → Choice (Elem τ) T) {d : Dom τ} (hd : Valid d) {q : τ} {b c : U64}
    (hq : get q d = .ok (b, c)) (mem : Elem τ → T) :
    ∃ r, Dom.removeDimsOf d [q] = .ok r ∧ Valid r ∧ (∀ t, t ∈ tags r ↔ t ∈ tags d ∧ t ≠ q) ∧
      (∀ t ∈ tags r, get t r = get t d) ∧
      transformScan kind k op f choice d q mem
        = .ok ((cart (axes r)).foldl (fun m eb => scanLine kind k op f (choice eb)
            ((axis b c).map (glue q (tags d) eb)) m) mem) := by
  have hqd := mem_tags_of_get hq
  obtain ⟨s, s1, s2, s3, s4⟩ := (C10_select [q] (by simp) d hd).1 (by simpa using hqd)
  obtain ⟨r, r1, r2, r3, _, r4⟩ := C10_remove_dims d hd [q]
  have hs : s = [(q, (b, c))] := by
    refine ext_get s3 (by rw [s3]; simp) ?_
    intro t ht
    have : t = q := by rw [s3] at ht; simpa using ht
    subst this
    rw [s4 t (by simp), hq]; simp
  subst hs
  refine ⟨r, r1, r2, by simpa using r3, r4, ?_⟩
  have s1' : Dom.ofDomains [q] [d] = .ok [(q, (b, c))] := s1
  simp only [transformScan, s1', Res.ok_bind]
  rw [show Dom.removeDimsOf d (tags ([(q, (b, c))] : Dom τ)) = .ok r from r1]
  simp only [Res.ok_bind]
  rw [Support.forEach_eq (grid_dom r2)]
  have hg := grid_dom s2
  have hext := hg.extents
  have hpol := Support.adapter_policy hg
  rw [Support.foldlM_ok (cart (axes r)) (fun m eb => scanLine kind k op f (choice eb)
            ((axis b c).map (glue q (tags d) eb)) m)]
  · rfl
  · intro m eb heb
    have heb' : tags eb = tags r := ((mem_cart_axes r2 eb).1 heb).1
    have hext' : Dom.extents ([(q, (b, c))] : Dom τ)
        = .ok ((axes ([(q, (b, c))] : Dom τ)).map (fun a => (a.1, (BitVec.ofNat 64 a.2.length : I64)))) := hext
    rw [hext']
    simp only [Res.ok_bind]
    rw [Support.vals_lengths]
    have had : Support.adapter (Dom.support ([(q, (b, c))] : Dom τ))
        = fun i => Dom.at' [(q, (b, c))] ((tags ([(q, (b, c))] : Dom τ)).zip i) := by
      funext i; rfl
    rw [had] at hpol
    rw [mapM_bind_ok (g' := fun e => glue q (tags d) eb (BitVec.ofNat 64 (idx q e))) hpol]
    · simp only [Res.ok_bind, Res.pure_eq]
      congr 2
      have : cart (axes ([(q, (b, c))] : Dom τ)) = (axis b c).map (fun v => [(q, v)]) := by
        simp [axes, cart, List.map_eq_flatMap]
      rw [this, List.map_map]
      refine List.map_congr_left ?_
      intro v _
      simp [idx]
    · intro e he
      have he' : tags e = [q] := ((mem_cart_axes s2 e).1 he).1
      obtain ⟨x, hx⟩ := get_ok_iff_mem_tags.2 (show q ∈ tags e by rw [he']; simp)
      obtain ⟨y, y1, y2, y3⟩ := ofTuples_ok (qs := tags d) (xs := [eb, e]) (by
        intro t ht
        by_cases htq : t = q
        · subst htq
          refine Dom.ownedOnce_pair_right ?_ ?_
          · rw [heb']; intro h; exact ((r3 t).1 h).2 (by simp)
          · rw [he']; simp
        · refine Dom.ownedOnce_pair_left ?_ ?_
          · rw [heb']; exact (r3 t).2 ⟨ht, by simpa using htq⟩
          · rw [he']; simpa using htq)
      rw [y1]
      congr 1
      refine ext_get (by rw [y2, tags_glue]) (by rw [y2]; exact hd.1) ?_
      intro t ht
      rw [y2] at ht
      rw [get_glue ht]
      by_cases htq : t = q
      · subst htq
        rw [y3 t ht e (by simp) (by rw [he']; simp), hx, idx_ok hx]; simp
      · have hteb : t ∈ tags eb := by rw [heb']; exact (r3 t).2 ⟨ht, by simpa using htq⟩
        obtain ⟨z, hz⟩ := get_ok_iff_mem_tags.2 hteb
        rw [y3 t ht eb (by simp) hteb, hz, idx_ok hz]; simp [htq]

/-- The whole algorithm without any assumption on the operation: each cell of the domain receives what the scan of its
line writes there, the line being made of the elements before it along `q`, itself and others. -/
theorem scan_core (kind : Kind) (op : T → T → T) (k : KReducer T) (h : Elem τ → T → T)
    (hx : kind = .exclusive → ∀ e v w, h e v = h e w)
    (choice : Elem τ → Choice (Elem τ) T) (hc : ∀ e line, LegalChoice (choice e) line)
    (d : Dom τ) (hd : Valid d) (q : τ) (hq : q ∈ tags d) (mem : Elem τ → T) :
    ∃ mem', transformScan kind k op (fun m e => h e (m e)) choice d q mem = .ok mem' ∧
      (∀ e, tags e = tags d → InBox d e → ∃ c line post, LegalChoice c line ∧ line.Nodup ∧
        line = run q (lo q d) (idx q e - lo q d) e ++ e :: post ∧ setIdx q (idx q e) e = e ∧
        mem' e = scanLine kind k op (fun m e => h e (m e)) c line mem e) ∧
      (∀ e, ¬ (tags e = tags d ∧ InBox d e) → mem' e = mem e) := by
  obtain ⟨⟨b, c⟩, hbc⟩ := get_ok_iff_mem_tags.2 hq
  obtain ⟨r, r1, r2, r3, r4, r5⟩ := transformScan_eq kind k op (fun m e => h e (m e)) choice hd hbc mem
  rw [r5]
  -- what is on a line
  have hnd : ∀ eb, ((axis b c).map (glue q (tags d) eb)).Nodup := by
    intro eb
    rw [List.nodup_iff_pairwise_ne, List.pairwise_map]
    refine (axis_sorted b c).imp ?_
    intro x y hxy hg
    have := congrArg (get q) hg
    rw [get_glue hq, get_glue hq] at this
    simp only [if_true, Res.ok.injEq] at this
    subst this; omega
  have hbox : ∀ eb ∈ cart (axes r), tags eb = tags r ∧ InBox r eb := by
    intro eb heb
    obtain ⟨h1, h2⟩ := (mem_cart_axes r2 eb).1 heb
    obtain ⟨x, g1, g2⟩ := Dom.contains_one r2.1 (e := eb) (by rw [SameTags, h1])
    rw [h2] at g1
    exact ⟨h1, g2.1 (Res.ok.inj g1).symm⟩
  have hline : ∀ eb ∈ cart (axes r), ∀ e, e ∈ (axis b c).map (glue q (tags d) eb) →
      (tags e = tags d ∧ InBox d e) ∧ ∀ t ∈ tags r, get t e = get t eb := by
    intro eb heb e he
    obtain ⟨v, hv, rfl⟩ := List.mem_map.1 he
    obtain ⟨h1, h2⟩ := hbox eb heb
    refine ⟨⟨tags_glue _ _ _ _, ?_⟩, ?_⟩
    · intro t ht
      rw [idx_ok (get_glue ht)]
      by_cases htq : t = q
      · subst htq
        rw [lo_ok hbc, hi_ok hbc]; simpa using mem_axis.1 hv
      · have htr : t ∈ tags r := (r3 t).2 ⟨ht, htq⟩
        have := h2 t htr
        have e1 := Dom.lo_congr (r4 t htr); have e2 := Dom.hi_congr (r4 t htr)
        have e3 : idx t eb < 2 ^ 64 := by
          unfold idx; split
          · exact BitVec.isLt _
          · decide
        rw [if_neg htq, BitVec.toNat_ofNat, Nat.mod_eq_of_lt e3]; omega
    · intro t ht
      obtain ⟨htd, htq⟩ := (r3 t).1 ht
      rw [get_glue htd, if_neg htq]
      obtain ⟨z, hz⟩ := get_ok_iff_mem_tags.2 (show t ∈ tags eb by rw [h1]; exact ht)
      rw [hz, idx_ok hz]; simp
  -- lines of different batch elements are disjoint
  have hnodup : (cart (axes r)).Nodup := nodup_of_lex (lex_axes r)
  have hdis : (cart (axes r)).Pairwise (fun i j => ∀ e, e ∈ (axis b c).map (glue q (tags d) i) →
      ¬ e ∈ (axis b c).map (glue q (tags d) j)) := by
    refine (List.nodup_iff_pairwise_ne.1 hnodup).imp_of_mem ?_
    intro i j hi hj' hne e he he'
    refine hne ?_
    have t1 := (hbox i hi).1; have t2 := (hbox j hj').1
    refine ext_get (by rw [t1, t2]) (by rw [t1]; exact r2.1) ?_
    intro t ht
    rw [t1] at ht
    rw [← (hline i hi e he).2 t ht, ← (hline j hj' e he').2 t ht]
  obtain ⟨f1, f2⟩ := foldl_disjoint
    (fun (eb : Elem τ) m => scanLine kind k op (fun m e => h e (m e)) (choice eb)
      ((axis b c).map (glue q (tags d) eb)) m)
    (fun eb e => e ∈ (axis b c).map (glue q (tags d) eb)) (cart (axes r)) (by
      intro eb _ m e he
      exact (scanLine_block op k kind h hx _ _ (hnd eb) (hc _ _)).1 m e he) (by
      intro eb _ m m' hmm e he
      exact scanLine_local op k kind h hx _ _ (hnd eb) (hc _ _) m m' hmm e he)
    hdis mem
  refine ⟨_, rfl, ?_, ?_⟩
  · intro e ht hin
    -- the batch element of `e`
    have hsel : ∀ t ∈ tags r, t ∈ tags e := fun t ht' => ht ▸ ((r3 t).1 ht').1
    obtain ⟨eb, _, b2, b3⟩ := select_ok hsel
    have hebin : eb ∈ cart (axes r) := by
      rw [mem_cart_axes r2]
      refine ⟨b2, ?_⟩
      obtain ⟨x, g1, g2⟩ := Dom.contains_one r2.1 (e := eb) (by rw [SameTags, b2])
      rw [g1]; congr 1; rw [g2]
      intro t ht'
      have := hin t ((r3 t).1 ht').1
      have e1 := Dom.lo_congr (r4 t ht'); have e2 := Dom.hi_congr (r4 t ht')
      have e3 : idx t eb = idx t e := by simp only [idx, b3 t ht']
      omega
    obtain ⟨x, hxe⟩ := get_ok_iff_mem_tags.2 (show q ∈ tags e by rw [ht]; exact hq)
    have hinq := hin q hq
    rw [lo_ok hbc, hi_ok hbc, idx_ok hxe] at hinq
    have hglue : ∀ v : U64, glue q (tags d) eb v = setIdx q v.toNat e := by
      intro v
      refine ext_get (by rw [tags_glue, tags_setIdx, ht]) (by rw [tags_glue]; exact hd.1) ?_
      intro t ht'
      rw [tags_glue] at ht'
      obtain ⟨z, hz⟩ := get_ok_iff_mem_tags.2 (show t ∈ tags e by rw [ht]; exact ht')
      rw [get_glue ht', get_setIdx hz]
      by_cases htq : t = q
      · simp [htq]
      · have htr : t ∈ tags r := (r3 t).2 ⟨ht', htq⟩
        have : get t eb = .ok z := by rw [b3 t htr, hz]
        simp only [if_neg htq]
        rw [idx_ok this]; simp
    have hself : setIdx q x.toNat e = e := by
      refine ext_get (by rw [tags_setIdx]) (by rw [tags_setIdx, ht]; exact hd.1) ?_
      intro t ht'
      rw [tags_setIdx] at ht'
      obtain ⟨z, hz⟩ := get_ok_iff_mem_tags.2 ht'
      rw [get_setIdx hz, hz]
      by_cases htq : t = q
      · subst htq
        rw [hz] at hxe; injection hxe with hxe; subst hxe; simp
      · simp [htq]
    -- position of `e` on its line
    have hb := b.isLt; have hcl := c.isLt
    have hval : ∀ i, i < c.toNat - b.toNat → (b + BitVec.ofNat 64 i).toNat = b.toNat + i := by
      intro i hi; rw [BitVec.toNat_add, BitVec.toNat_ofNat]; omega
    have hsplit : (axis b c).map (glue q (tags d) eb)
        = run q b.toNat (x.toNat - b.toNat) e ++ e ::
          (run q (x.toNat + 1) (c.toNat - x.toNat - 1) e) := by
      have e1 : (axis b c).map (glue q (tags d) eb) = run q b.toNat (c.toNat - b.toNat) e := by
        simp only [axis, run, List.map_map]
        refine List.map_congr_left ?_
        intro i hi
        rw [Function.comp_apply, hglue, hval i (List.mem_range.1 hi)]
      have e2 : c.toNat - b.toNat = (x.toNat - b.toNat) + (1 + (c.toNat - x.toNat - 1)) := by omega
      rw [e1, e2, run, List.range_add, List.map_append, List.range_add, List.map_append, List.map_append]
      rw [← run, List.append_right_inj]
      simp only [List.range_one, List.map_cons, List.map_nil, Nat.add_zero, List.cons_append, List.nil_append, run,
        List.map_map]
      rw [show b.toNat + (x.toNat - b.toNat) = x.toNat by omega, hself]
      congr 1
      refine List.map_congr_left ?_
      intro i _
      simp only [Function.comp_apply]
      congr 1; omega
    have heline : e ∈ (axis b c).map (glue q (tags d) eb) := by rw [hsplit]; simp
    refine ⟨choice eb, _, _, hc _ _, hnd eb, by rw [lo_ok hbc, idx_ok hxe]; exact hsplit, by rw [idx_ok hxe]; exact hself,
      f1 eb hebin e heline⟩
  · intro e he
    exact f2 e (fun eb heb hin => he (hline eb heb e hin).1)

/-- The whole algorithm, any rank, any scanned dimension, any monoid with the identity of
the reducer, any choices of the backend.  `h e v` is the transform of element `e` when
its cell of the output holds `v`.  The inclusive scan writes at `e` the reduction of the
elements with index `lo .. idx e` along `q`, the exclusive one `lo .. idx e - 1`, both
started from the identity of the reducer; cells outside the domain are not touched. -/
theorem C23_scan (kind : Kind) {P : T → Prop} {op : T → T → T} {k : KReducer T} (hm : MonoidOn P op k.identity)
    (hj : ∀ a b, P a → P b → k.join a b = op a b) (h : Elem τ → T → T) (hP : ∀ e v, P (h e v))
    (hx : kind = .exclusive → ∀ e v w, h e v = h e w)
    (choice : Elem τ → Choice (Elem τ) T) (hc : ∀ e line, LegalChoice (choice e) line)
    (d : Dom τ) (hd : Valid d) (q : τ) (hq : q ∈ tags d) (mem : Elem τ → T) :
    ∃ mem', transformScan kind k op (fun m e => h e (m e)) choice d q mem = .ok mem' ∧
      (∀ e, tags e = tags d → InBox d e →
        mem' e = ((run q (lo q d) (idx q e - lo q d + (if kind = .inclusive then 1 else 0)) e).map
          (fun e => h e (mem e))).foldl op k.identity) ∧
      (∀ e, ¬ (tags e = tags d ∧ InBox d e) → mem' e = mem e) := by
  obtain ⟨mem', h1, h2, h3⟩ := scan_core kind op k h hx choice hc d hd q hq mem
  refine ⟨mem', h1, ?_, h3⟩
  intro e ht hin
  obtain ⟨c, line, post, c1, c2, c3, c4, c5⟩ := h2 e ht hin
  rw [c5, (scanLine_spec hm hj kind h hx hP c line c2 c1 mem).2 _ e _ c3]
  have hlo := (hin q hq).1
  cases kind with
  | inclusive =>
    simp only [prefixValue, if_true]
    congr 2
    rw [run, run, List.range_succ, List.map_append]
    simp only [List.map_cons, List.map_nil]
    rw [show lo q d + (idx q e - lo q d) = idx q e by omega, c4]
  | exclusive => simp [prefixValue]

/-- Unsigned integers of any width with any of the reducers: the result does not depend on
the choices of the backend. -/
theorem C23_unsigned (kind : Kind) (rn : RedName) (w : Nat) (hw : 0 < w) (g : Elem τ → BitVec w)
    (hg : ∀ e, rn.Dom (g e)) (choice : Elem τ → Choice (Elem τ) (BitVec w))
    (hc : ∀ e line, LegalChoice (choice e) line) (d : Dom τ) (hd : Valid d) (q : τ) (hq : q ∈ tags d)
    (mem : Elem τ → BitVec w) :
    ∃ mem', transformScan kind rn.kokkos rn.op (fun _ e => g e) choice d q mem = .ok mem' ∧
      (∀ e, tags e = tags d → InBox d e →
        mem' e = ((run q (lo q d) (idx q e - lo q d + (if kind = .inclusive then 1 else 0)) e).map g).foldl
          rn.op rn.kokkos.identity) ∧
      (∀ e, ¬ (tags e = tags d ∧ InBox d e) → mem' e = mem e) := by
  obtain ⟨h1, h2⟩ := C24_unsigned rn w hw
  exact C23_scan kind h1.toMonoidOn h2 (fun e _ => g e) (fun e _ => hg e) (fun _ _ _ _ => rfl) choice hc d hd q hq mem

/-- The exclusive scan in place is wrong: the cell is overwritten before the functor
reads it.  Scanning `[1, 1]` in place with `sum`, the exclusive prefix sums are `[0, 1]`
but the algorithm writes `0` in the second cell (run as a single block).  The inclusive
scan in place is right (`C23_scan`). -/
theorem C23_exclusive_in_place :
    let mem : Fin 2 → BitVec 32 := fun _ => 1
    let c : Choice (Fin 2) (BitVec 32) := ⟨fun l => [l], id⟩
    LegalChoice c [0, 1] ∧
    scanLine .exclusive RedName.sum.kokkos RedName.sum.op (fun m e => m e) c [0, 1] mem 1 = 0 ∧
    scanLine .inclusive RedName.sum.kokkos RedName.sum.op (fun m e => m e) c [0, 1] mem 1 = 2 := by
  refine ⟨⟨by decide, fun l => .refl _⟩, by decide, by decide⟩

/-! Non-vacuity: one block per element, the second pass in reverse order. -/
example : ∀ line : List Nat, LegalChoice (⟨fun l => l.map (fun x => [x]), List.reverse⟩ : Choice Nat Nat) line :=
  fun line => ⟨by induction line with
    | nil => rfl
    | cons a l ih => simpa using ih, fun l => l.reverse_perm⟩
example : (run 'x' 5 3 [('x', 7), ('y', 2)])
    = [[('x', 5), ('y', 2)], [('x', 6), ('y', 2)], [('x', 7), ('y', 2)]] := by decide

end DDC.Props
