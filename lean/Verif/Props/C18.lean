import Verif.Lemmas.Copy
import Verif.Props.C08
import Verif.Props.C08b
import Verif.Props.C15

/-!
# C18 — copies and mirrors preserve the value of every element
-/

namespace DDC.Props

open Tup Spec

variable {τ : Type} [DecidableEq τ] {α : Type} {D : Type}

/-- Value of element `e` of a chunk. -/
def valueAt (ops : SpanOps τ D) (mem : Mem α) (v : View D) (e : Elem τ) : Res α := do
  let p ← v.span.access ops [e]
  mem.read v.buf p

/-- A view over an existing allocation, with the strides its layout type prescribes. -/
structure Usable (ops : SpanOps τ D) (V : D → Prop) (mem : Mem α) (v : View D) : Prop where
  valid : V v.span.dom
  wf : WF ops v.span
  layout : v.layout.dims v.span.md.dims = v.span.md.dims
  alloc : ∃ l, mem[v.buf]? = some l ∧ l.length = v.span.md.cells

/-- Distinct elements have distinct cells (C15, and the precondition of `layout_stride`). -/
def DistinctCells (ops : SpanOps τ D) (s : Span D) : Prop :=
  ∀ e f p, tags e = ops.tags s.dom → tags f = ops.tags s.dom →
    s.access ops [e] = .ok p → s.access ops [f] = .ok p → e = f

/-- `e'` is the projection of `e` on the tags of `src`. -/
def Projects (ops : SpanOps τ D) (src : Span D) (e e' : Elem τ) : Prop :=
  tags e' = ops.tags src.dom ∧ ∀ q ∈ tags e', get q e' = get q e

/-- The cells of the destination are not those of the source, except that a cell may be
copied to itself (copy of a chunk onto itself). -/
def NoClash (ops : SpanOps τ D) (dst src : View D) : Prop :=
  dst.buf = src.buf → ∀ e e' f p, tags e = ops.tags dst.span.dom → Projects ops src.span e e' →
    dst.span.access ops [e] = .ok p → src.span.access ops [f] = .ok p → src.span.access ops [e'] = .ok p

/-- What a copy does: every element of the destination receives the value its projection has
in the source, every other cell of the memory is unchanged. -/
structure Copied (ops : SpanOps τ D) (mem : Mem α) (dst src : View D) (mem' : Mem α) : Prop where
  value : ∀ e e', tags e = ops.tags dst.span.dom → ops.contains dst.span.dom [e] = .ok true →
    Projects ops src.span e e' →
    ∃ x, valueAt ops mem src e' = .ok x ∧ valueAt ops mem' dst e = .ok x
  frame : ∀ b p, ¬ (b = dst.buf ∧ ∃ e, tags e = ops.tags dst.span.dom ∧ dst.span.access ops [e] = .ok p) →
    cell mem' b p = cell mem b p

/-- What the property needs of `operator==` on domains of the same type. -/
structure EqKind (ops : SpanOps τ D) (eq : D → D → Res Bool) (axesOf : D → List (τ × List U64)) (V : D → Prop) :
    Prop where
  defined : ∀ a b, V a → V b → ops.tags a = ops.tags b → ((axesOf a).map (fun x => x.2.length)).prod < 2 ^ 64 →
    ((axesOf b).map (fun x => x.2.length)).prod < 2 ^ 64 →
    ∃ r, eq a b = .ok r ∧ (a = b → r = true) ∧
      (r = true → axesOf a = axesOf b ∨ ((∃ x ∈ axesOf a, x.2 = []) ∧ ∃ x ∈ axesOf b, x.2 = []))

section generic

variable {ops : SpanOps τ D} {axesOf : D → List (τ × List U64)} {V : D → Prop}

omit [DecidableEq τ] in
private theorem exists_forall₂ {A B : Type} {R : A → B → Prop} {l : List A} (h : ∀ x ∈ l, ∃ y, R x y) :
    ∃ js, List.Forall₂ R l js := by
  induction l with
  | nil => exact ⟨[], .nil⟩
  | cons a l ih =>
    obtain ⟨y, hy⟩ := h a (by simp)
    obtain ⟨js, hjs⟩ := ih (fun x hx => h x (by simp [hx]))
    exact ⟨y :: js, .cons hy hjs⟩

omit [DecidableEq τ] in
private theorem forall₂_mem {A B : Type} {R : A → B → Prop} {l : List A} {js : List B} (h : List.Forall₂ R l js) :
    (∀ x ∈ l, ∃ j ∈ js, R x j) ∧ (∀ j ∈ js, ∃ x ∈ l, R x j) := by
  induction h with
  | nil => simp
  | @cons a b l js hab _ ih =>
    constructor
    · intro x hx
      rcases List.mem_cons.1 hx with rfl | hx
      · exact ⟨b, by simp, hab⟩
      · obtain ⟨j, h1, h2⟩ := ih.1 x hx; exact ⟨j, by simp [h1], h2⟩
    · intro x hx
      rcases List.mem_cons.1 hx with rfl | hx
      · exact ⟨a, by simp, hab⟩
      · obtain ⟨j, h1, h2⟩ := ih.2 x hx; exact ⟨j, by simp [h1], h2⟩

private theorem access_lt (K : SpanKind ops axesOf V) {s : Span D} (hV : V s.dom) (hw : WF ops s) {e : Elem τ} {p : Nat}
    (ht : tags e = ops.tags s.dom) (h : s.access ops [e] = .ok p) : p < s.md.cells ∧ e ∈ cart (axesOf s.dom) := by
  have hnd := K.nodup _ hV
  rw [K.tags _ hV] at ht
  by_cases hin : e ∈ cart (axesOf s.dom)
  · obtain ⟨v, _, _, _, _, _, a, b⟩ := K.access_mem hV hw (es := [e]) (by simp [ht]) (ofTuples_one hnd ht) hin
    rw [h] at a
    exact ⟨by rw [Res.ok.inj a]; exact b, hin⟩
  · rw [(K.access_not_mem hV (es := [e]) (by simp [ht]) (ofTuples_one hnd ht) hin).2] at h
    cases h

private theorem cell_some {mem : Mem α} {v : View D} (hu : Usable ops V mem v) {p : Nat} (hp : p < v.span.md.cells) :
    (cell mem v.buf p).isSome := by
  obtain ⟨l, h1, h2⟩ := hu.alloc
  simp [cell, h1, List.getElem?_eq_getElem (show p < l.length by omega)]

/-- Jobs that enumerate the elements of the destination. -/
private theorem copied_of_jobs (K : SpanKind ops axesOf V) {mem : Mem α} {dst src : View D}
    (hd : Usable ops V mem dst) (hs : Usable ops V mem src) (hinj : DistinctCells ops dst.span)
    (hov : NoClash ops dst src) {js : List (Nat × Nat)}
    (h1 : ∀ j ∈ js, ∃ e e', tags e = ops.tags dst.span.dom ∧ Projects ops src.span e e' ∧
      dst.span.access ops [e] = .ok j.1 ∧ src.span.access ops [e'] = .ok j.2)
    (h2 : ∀ e, e ∈ cart (axesOf dst.span.dom) → ∃ j ∈ js, dst.span.access ops [e] = .ok j.1) :
    ∃ mem', js.foldlM (copyCell dst.buf src.buf) mem = .ok mem' ∧ Copied ops mem dst src mem' := by
  have uniq : ∀ e f f', Projects ops src.span e f → Projects ops src.span e f' → f = f' := by
    intro e f f' hf hf'
    refine ext_get (by rw [hf.1, hf'.1]) (by rw [hf.1, K.tags _ hs.valid]; exact K.nodup _ hs.valid) ?_
    intro q hq
    rw [hf.2 q hq, hf'.2 q (by rw [hf'.1, ← hf.1]; exact hq)]
  obtain ⟨mem', g1, g2, g3⟩ := copyCells_ok (db := dst.buf) (sb := src.buf) js mem
    (by
      intro j hj
      obtain ⟨e, e', a, b, c, d⟩ := h1 j hj
      exact cell_some hd (access_lt K hd.valid hd.wf a c).1)
    (by
      intro j hj
      obtain ⟨e, e', a, b, c, d⟩ := h1 j hj
      exact cell_some hs (access_lt K hs.valid hs.wf b.1 d).1)
    (by
      intro j hj k hk hjk
      obtain ⟨e, e', a, b, c, d⟩ := h1 j hj
      obtain ⟨f, f', a2, b2, c2, d2⟩ := h1 k hk
      obtain rfl := hinj e f _ a a2 c (hjk ▸ c2)
      obtain rfl := uniq _ _ _ b b2
      rw [d] at d2; exact Res.ok.inj d2)
    (by
      intro j hj k hk hb hjk
      obtain ⟨e, e', a, b, c, d⟩ := h1 j hj
      obtain ⟨f, f', a2, b2, c2, d2⟩ := h1 k hk
      have := hov hb e e' f' j.1 a b c (hjk ▸ d2)
      rw [d] at this; exact (Res.ok.inj this).symm)
  refine ⟨mem', g1, ?_, ?_⟩
  · intro e e' ht hc hp
    have hin : e ∈ cart (axesOf dst.span.dom) := by
      have hnd := K.nodup _ hd.valid
      have ht' := ht; rw [K.tags _ hd.valid] at ht'
      obtain ⟨c, c1, c2⟩ := K.contains _ hd.valid [e] e (by simp [ht']) (ofTuples_one hnd ht')
      rw [hc] at c1; exact c2.1 (Res.ok.inj c1).symm
    obtain ⟨j, hj, hj'⟩ := h2 e hin
    obtain ⟨f, f', a, b, c, d⟩ := h1 j hj
    obtain rfl := hinj e f _ ht a hj' c
    obtain rfl := uniq _ _ _ hp b
    obtain ⟨x, hx⟩ := Option.isSome_iff_exists.1 (cell_some hs (access_lt K hs.valid hs.wf b.1 d).1)
    refine ⟨x, ?_, ?_⟩
    · rw [valueAt, d, Res.ok_bind, Mem.read_eq, hx]
    · rw [valueAt, c, Res.ok_bind, Mem.read_eq, g2 j hj, hx]
  · intro b p hbp
    refine g3 b p ?_
    intro hb j hj hjp
    obtain ⟨f, f', a, b', c, d⟩ := h1 j hj
    exact hbp ⟨hb, f, a, by rw [c, hjp]⟩

private theorem kokkosView_eq {mem : Mem α} {v : View D} (hu : Usable ops V mem v) : v.kokkosView = v.span.md := by
  rw [View.kokkosView, hu.layout]

private theorem picks_inExt (K : SpanKind ops axesOf V) {s : Span D} (hV : V s.dom) (hw : WF ops s) {is : List U64}
    (h : MDSpan.InExt s.md.dims is) : ∃ e, Picks (axesOf s.dom) is e := by
  rw [MDSpan.inExt_iff, K.dims hV hw] at h
  obtain ⟨e, he⟩ := picks_of_within (K.small _ hV) h
  have : (is.map BitVec.toNat).map (BitVec.ofNat 64) = is := by
    rw [List.map_map]; conv => rhs; rw [← List.map_id is]
    refine List.map_congr_left ?_
    intro x _; simp
  rw [this] at he
  exact ⟨e, he⟩

private theorem dims_eq_of_extents {s t : Span D} (hs : WF ops s) (ht : WF ops t)
    (h : ops.extents s.dom = ops.extents t.dom) : s.md.dims.map Prod.fst = t.md.dims.map Prod.fst := by
  obtain ⟨x, x1, x2⟩ := hs.exts
  obtain ⟨y, y1, y2⟩ := ht.exts
  rw [h, y1] at x1
  rw [x2, y2, Res.ok.inj x1]

private theorem deepCopy_ok (K : SpanKind ops axesOf V) {mem : Mem α} {dst src : View D}
    (hd : Usable ops V mem dst) (hs : Usable ops V mem src) (hinj : DistinctCells ops dst.span)
    (hov : NoClash ops dst src) (hx : ops.extents dst.span.dom = ops.extents src.span.dom)
    (hax : axesOf dst.span.dom = axesOf src.span.dom ∨ ∃ x ∈ axesOf dst.span.dom, x.2 = [])
    {sched : List (List U64)}
    (hp : sched.Perm (MDSpan.indices (dst.span.md.dims.map Prod.fst))) :
    ∃ mem', deepCopy sched mem dst.buf dst.kokkosView src.buf src.kokkosView = .ok mem' ∧
      Copied ops mem dst src mem' := by
  rw [kokkosView_eq hd, kokkosView_eq hs, deepCopy, if_pos (dims_eq_of_extents hd.wf hs.wf hx)]
  have htag : ops.tags dst.span.dom = ops.tags src.span.dom := by
    rw [K.extents _ hd.valid, K.extents _ hs.valid] at hx
    rw [K.tags _ hd.valid, K.tags _ hs.valid]
    have := congrArg (List.map Prod.fst) (Res.ok.inj hx)
    simpa [Function.comp_def, tags] using this
  have hmem : ∀ is, is ∈ sched ↔ MDSpan.InExt dst.span.md.dims is := fun is => by
    rw [hp.mem_iff, MDSpan.mem_indices]
  have hproj : ∀ e : Elem τ, tags e = ops.tags dst.span.dom → Projects ops src.span e e :=
    fun e he => ⟨he.trans htag, fun _ _ => rfl⟩
  -- one iteration
  have one : ∀ is ∈ sched, ∃ j : Nat × Nat,
      (do let p ← dst.span.md.access is
          let q ← src.span.md.access is
          pure (p, q)) = Res.ok j ∧
      ∃ e, Picks (axesOf dst.span.dom) is e ∧ tags e = ops.tags dst.span.dom ∧
        dst.span.access ops [e] = .ok j.1 ∧ src.span.access ops [e] = .ok j.2 := by
    intro is his
    obtain ⟨e, he⟩ := picks_inExt K hd.valid hd.wf ((hmem is).1 his)
    have hte : tags e = ops.tags dst.span.dom := by
      rw [K.tags _ hd.valid]; exact ((mem_cart_get (K.nodup _ hd.valid)).1 (picks_cart he)).1
    rcases hax with hax | ⟨x, hx1, hx2⟩
    · obtain ⟨p, p1, _, p3, _, _⟩ := K.access_picks hd.valid hd.wf he
      obtain ⟨q, q1, _, q3, _, _⟩ := K.access_picks hs.valid hs.wf (hax ▸ he)
      exact ⟨(p, q), by rw [p3, q3]; rfl, e, he, hte, p1, q1⟩
    · exfalso
      obtain ⟨i, y, _, _, hy⟩ := (picks_gets (v := (tags (axesOf dst.span.dom)).zip is) (K.nodup _ hd.valid)
        (by
          have := List.Forall₂.length_eq (picks_within he)
          simp only [List.length_map] at this
          rw [tags, List.map_fst_zip]; simp [tags]; omega)
        (by
          have := List.Forall₂.length_eq (picks_within he)
          simp only [List.length_map] at this
          rw [vals, List.map_snd_zip]; exact he; simp [tags]; omega)).2 x.1 x.2 (get_of_mem (K.nodup _ hd.valid) hx1)
      rw [hx2] at hy; simp at hy
  obtain ⟨js, hjs⟩ := exists_forall₂ one
  obtain ⟨m1, m2⟩ := forall₂_mem hjs
  have hfold : sched.foldlM (fun mem is => do
      let p ← dst.span.md.access is
      let q ← src.span.md.access is
      copyCell dst.buf src.buf mem (p, q)) mem = js.foldlM (copyCell dst.buf src.buf) mem := by
    rw [← foldlM_jobs (fun is => do
      let p ← dst.span.md.access is
      let q ← src.span.md.access is
      pure (p, q)) (copyCell dst.buf src.buf) (hjs.imp (fun _ _ h => h.1))]
    congr 1
    funext m is
    cases dst.span.md.access is <;> try rfl
    cases src.span.md.access is <;> rfl
  rw [hfold]
  refine copied_of_jobs K hd hs hinj hov ?_ ?_
  · intro j hj
    obtain ⟨is, _, _, e, _, he, a, b⟩ := m2 j hj
    exact ⟨e, e, he, hproj e he, a, b⟩
  · intro e he
    have ht := ((mem_cart_get (K.nodup _ hd.valid)).1 he).1
    obtain ⟨v, _, _, _, v4, v5, a, _⟩ := K.access_mem hd.valid hd.wf (es := [e]) (by simp [ht])
      (ofTuples_one (K.nodup _ hd.valid) ht) he
    obtain ⟨j, hj, _, f, hf, _, c, _⟩ := m1 _ ((hmem _).2 v5)
    refine ⟨j, hj, ?_⟩
    rw [picks_det v4 hf rfl]; exact c

private theorem fill_ok (K : SpanKind ops axesOf V) {mem : Mem α} {dst : View D} (hd : Usable ops V mem dst) (x : α)
    {sched : List (List U64)} (hp : sched.Perm (MDSpan.indices (dst.span.md.dims.map Prod.fst))) :
    ∃ mem', parallelFill (D := D) sched mem dst x = .ok (mem', dst) ∧
      (∀ e, tags e = ops.tags dst.span.dom → ops.contains dst.span.dom [e] = .ok true →
        valueAt ops mem' dst e = .ok x) ∧
      ∀ b p, ¬ (b = dst.buf ∧ ∃ e, tags e = ops.tags dst.span.dom ∧ dst.span.access ops [e] = .ok p) →
        cell mem' b p = cell mem b p := by
  have hmem : ∀ is, is ∈ sched ↔ MDSpan.InExt dst.span.md.dims is := fun is => by
    rw [hp.mem_iff, MDSpan.mem_indices]
  have one : ∀ is ∈ sched, ∃ p : Nat, dst.span.md.access is = Res.ok p ∧
      ∃ e, Picks (axesOf dst.span.dom) is e ∧ tags e = ops.tags dst.span.dom ∧ dst.span.access ops [e] = .ok p := by
    intro is his
    obtain ⟨e, he⟩ := picks_inExt K hd.valid hd.wf ((hmem is).1 his)
    have hte : tags e = ops.tags dst.span.dom := by
      rw [K.tags _ hd.valid]; exact ((mem_cart_get (K.nodup _ hd.valid)).1 (picks_cart he)).1
    obtain ⟨p, p1, _, p3, _, _⟩ := K.access_picks hd.valid hd.wf he
    exact ⟨p, p3, e, he, hte, p1⟩
  obtain ⟨js, hjs⟩ := exists_forall₂ one
  obtain ⟨m1, m2⟩ := forall₂_mem hjs
  obtain ⟨mem', g1, g2, g3⟩ := fillCells_ok (db := dst.buf) js mem x (by
    intro p hp
    obtain ⟨is, _, _, e, _, he, a⟩ := m2 p hp
    exact cell_some hd (access_lt K hd.valid hd.wf he a).1)
  refine ⟨mem', ?_, ?_, ?_⟩
  · rw [parallelFill, deepFill, kokkosView_eq hd,
      foldlM_jobs (fun is => dst.span.md.access is) (fun m p => Mem.write m dst.buf p x) (hjs.imp (fun _ _ h => h.1)), g1]
    rfl
  · intro e ht hc
    have ht' := ht; rw [K.tags _ hd.valid] at ht'
    have he : e ∈ cart (axesOf dst.span.dom) := by
      obtain ⟨c, c1, c2⟩ := K.contains _ hd.valid [e] e (by simp [ht']) (ofTuples_one (K.nodup _ hd.valid) ht')
      rw [hc] at c1; exact c2.1 (Res.ok.inj c1).symm
    obtain ⟨v, _, _, _, v4, v5, a, _⟩ := K.access_mem hd.valid hd.wf (es := [e]) (by simp [ht'])
      (ofTuples_one (K.nodup _ hd.valid) ht') he
    obtain ⟨p, hp, _, f, hf, _, c⟩ := m1 _ ((hmem _).2 v5)
    obtain rfl := picks_det v4 hf rfl
    rw [valueAt, c, Res.ok_bind, Mem.read_eq, g2 p hp]
  · intro b p hbp
    refine g3 b p ?_
    intro hb hp
    obtain ⟨is, _, _, e, _, he, a⟩ := m2 p hp
    exact hbp ⟨hb, e, he, a⟩

/-- The loop of `parallel_copy`. -/
private theorem copyLoop_ok (K : SpanKind ops axesOf V) {mem : Mem α} {dst src : View D}
    (hd : Usable ops V mem dst) (hs : Usable ops V mem src) (hinj : DistinctCells ops dst.span)
    (hov : NoClash ops dst src) (hsub : ∀ q ∈ ops.tags src.span.dom, q ∈ ops.tags dst.span.dom)
    (hne : ops.tags dst.span.dom ≠ [])
    (hax : (∀ q ∈ tags (axesOf src.span.dom), get q (axesOf dst.span.dom) = get q (axesOf src.span.dom)) ∨
      ∃ x ∈ axesOf dst.span.dom, x.2 = [])
    {n : Vect τ} (hn : ops.extents dst.span.dom = .ok n)
    {sched : List (List I64)} (hp : sched.Perm (Support.policy n.vals)) :
    ∃ mem', (sched.foldlM (fun mem ids => do
        let j ← copyAdapter ops dst.span src.span ids
        copyCell dst.buf src.buf mem j) mem) = .ok mem' ∧ Copied ops mem dst src mem' := by
  have hnd := K.nodup _ hd.valid
  have hns := K.nodup _ hs.valid
  have hne' : axesOf dst.span.dom ≠ [] := by
    intro h; rw [K.tags _ hd.valid, h] at hne; exact hne rfl
  have hn' : n = (axesOf dst.span.dom).map (fun a => (a.1, (BitVec.ofNat 64 a.2.length : I64))) := by
    have := K.extents _ hd.valid; rw [hn] at this; exact Res.ok.inj this
  have hmem : ∀ ids, ids ∈ sched ↔ ∃ e, Picks (axesOf dst.span.dom) ids e := fun ids => by
    rw [hp.mem_iff, hn', Support.vals_lengths, Support.mem_policy hne' (K.small _ hd.valid)]
  have one : ∀ ids ∈ sched, ∃ j : Nat × Nat, copyAdapter ops dst.span src.span ids = Res.ok j ∧
      ∃ e e', Picks (axesOf dst.span.dom) ids e ∧ tags e = ops.tags dst.span.dom ∧ Projects ops src.span e e' ∧
        dst.span.access ops [e] = .ok j.1 ∧ src.span.access ops [e'] = .ok j.2 := by
    intro ids hids
    obtain ⟨e, he⟩ := (hmem ids).1 hids
    have hl : (axesOf dst.span.dom).length = ids.length := by
      have := List.Forall₂.length_eq (picks_within he); simpa using this
    have hzt : tags ((tags (axesOf dst.span.dom)).zip ids) = tags (axesOf dst.span.dom) := by
      rw [tags, List.map_fst_zip]; simp [tags]; omega
    have hzv : vals ((tags (axesOf dst.span.dom)).zip ids) = ids := by
      rw [vals, List.map_snd_zip]; simp [tags]; omega
    obtain ⟨ht, hg⟩ := picks_gets hnd hzt (by rw [hzv]; exact he)
    rcases hax with hax | ⟨x, hx1, hx2⟩
    · obtain ⟨p, p1, _, _, _, p5⟩ := K.access_picks hd.valid hd.wf he
      have hsub' : ∀ q ∈ tags (axesOf src.span.dom), q ∈ tags (axesOf dst.span.dom) := by
        intro q hq
        rw [← K.tags _ hd.valid]; rw [← K.tags _ hs.valid] at hq; exact hsub q hq
      obtain ⟨w, w1, w2, w3⟩ := select_ok (qs := tags (axesOf src.span.dom))
        (x := (tags (axesOf dst.span.dom)).zip ids) (fun q hq => by rw [hzt]; exact hsub' q hq)
      obtain ⟨e', f1, f2, f3⟩ := select_ok (qs := tags (axesOf src.span.dom)) (x := e)
        (fun q hq => by rw [ht]; exact hsub' q hq)
      have hpk : Picks (axesOf src.span.dom) (vals w) e' := by
        refine picks_of_get hns w2 f2 ?_
        intro q l hl
        have hq := mem_tags_of_get hl
        obtain ⟨i, y, a, b, c⟩ := hg q l (by rw [hax q hq]; exact hl)
        exact ⟨i, y, by rw [w3 q hq]; exact a, by rw [f3 q hq]; exact b, c⟩
      obtain ⟨r, r1, _, _, _, r5⟩ := K.access_picks hs.valid hs.wf hpk
      refine ⟨(p, r), ?_, e, e', he, by rw [ht, K.tags _ hd.valid], ⟨by rw [f2, K.tags _ hs.valid], ?_⟩, p1, r1⟩
      · have hT := K.tags _ hd.valid
        unfold copyAdapter
        cases hc : ops.tags dst.span.dom with
        | nil => exact absurd hc hne
        | cons t ts =>
          have hc' : t :: ts = tags (axesOf dst.span.dom) := by rw [← hc, hT]
          simp only [hc', K.tags _ hs.valid]
          rw [p5 _ hzt hzv, show Tup.ofTuples (tags (axesOf src.span.dom)) [(tags (axesOf dst.span.dom)).zip ids] = .ok w from w1]
          simp only [Res.ok_bind]
          rw [r5 w w2 rfl]
          rfl
      · intro q hq; exact f3 q (f2 ▸ hq)
    · exfalso
      obtain ⟨i, y, _, _, hy⟩ := hg x.1 x.2 (get_of_mem hnd hx1)
      rw [hx2] at hy; simp at hy
  obtain ⟨js, hjs⟩ := exists_forall₂ one
  obtain ⟨m1, m2⟩ := forall₂_mem hjs
  rw [foldlM_jobs (fun ids => copyAdapter ops dst.span src.span ids) (copyCell dst.buf src.buf)
    (hjs.imp (fun _ _ h => h.1))]
  refine copied_of_jobs K hd hs hinj hov ?_ ?_
  · intro j hj
    obtain ⟨is, _, _, e, e', _, he, hp, a, b⟩ := m2 j hj
    exact ⟨e, e', he, hp, a, b⟩
  · intro e he
    have ht := ((mem_cart_get hnd).1 he).1
    obtain ⟨v, _, _, _, v4, v5, a, _⟩ := K.access_mem hd.valid hd.wf (es := [e]) (by simp [ht])
      (ofTuples_one hnd ht) he
    obtain ⟨j, hj, _, f, f', hf, _, _, c, _⟩ := m1 _ ((hmem _).2 ⟨e, v4⟩)
    refine ⟨j, hj, ?_⟩
    rw [picks_det v4 hf rfl]; exact c

private theorem cart_nil_iff {ax : List (τ × List U64)} : (∀ e, e ∉ cart ax) ↔ ∃ x ∈ ax, x.2 = [] := by
  induction ax with
  | nil => simp [cart]
  | cons a ax ih =>
    obtain ⟨t, l⟩ := a
    constructor
    · intro h
      by_cases hl : l = []
      · exact ⟨(t, l), by simp, hl⟩
      · obtain ⟨x, l', rfl⟩ := List.exists_cons_of_ne_nil hl
        obtain ⟨y, hy, hy'⟩ := ih.1 (fun e he => h ((t, x) :: e) (by simp [cart, he]))
        exact ⟨y, by simp [hy], hy'⟩
    · rintro ⟨y, hy, hy'⟩ e he
      simp only [cart, List.mem_flatMap, List.mem_map] at he
      obtain ⟨v, hv, e', he', rfl⟩ := he
      rcases List.mem_cons.1 hy with rfl | hy
      · simp only at hy'; rw [hy'] at hv; simp at hv
      · exact ih.2 ⟨y, hy, hy'⟩ e' he'

/-- Sorted axes are determined by the points of their product. -/
private theorem axes_of_cart {ax bx : List (τ × List U64)} (ht : tags ax = tags bx)
    (ha : ∀ a ∈ ax, a.2.Pairwise (fun x y => x.toNat < y.toNat))
    (hb : ∀ a ∈ bx, a.2.Pairwise (fun x y => x.toNat < y.toNat)) (h : ∀ e, e ∈ cart ax ↔ e ∈ cart bx) :
    ax = bx ∨ ((∃ x ∈ ax, x.2 = []) ∧ ∃ x ∈ bx, x.2 = []) := by
  by_cases hn : ∀ e, e ∉ cart ax
  · exact .inr ⟨cart_nil_iff.1 hn, cart_nil_iff.1 (fun e he => hn e ((h e).2 he))⟩
  · left
    push_neg at hn
    induction ax generalizing bx with
    | nil =>
      cases bx with
      | nil => rfl
      | cons => simp at ht
    | cons a ax ih =>
      cases bx with
      | nil => simp at ht
      | cons b bx =>
        obtain ⟨t, l⟩ := a
        obtain ⟨u, m⟩ := b
        simp only [tags_cons, List.cons.injEq] at ht
        obtain ⟨rfl, ht⟩ := ht
        have hcons : ∀ (l : List U64) (cx : List (τ × List U64)) x e,
            ((t, x) :: e ∈ cart ((t, l) :: cx)) ↔ x ∈ l ∧ e ∈ cart cx := by
          intro l cx x e; simp [cart]
        obtain ⟨e0, he0⟩ := hn
        have : ∃ x f, e0 = (t, x) :: f := by
          simp only [cart, List.mem_flatMap, List.mem_map] at he0
          obtain ⟨v, _, f, _, rfl⟩ := he0
          exact ⟨v, f, rfl⟩
        obtain ⟨x0, f0, rfl⟩ := this
        obtain ⟨p1, p2⟩ := (hcons l ax x0 f0).1 he0
        obtain ⟨q1, q2⟩ := (hcons m bx x0 f0).1 ((h _).1 he0)
        have hlm : l = m := by
          have hs : ∀ x, x ∈ l ↔ x ∈ m := by
            intro x
            constructor
            · intro hx; exact ((hcons m bx x f0).1 ((h _).1 ((hcons l ax x f0).2 ⟨hx, p2⟩))).1
            · intro hx; exact ((hcons l ax x f0).1 ((h _).2 ((hcons m bx x f0).2 ⟨hx, q2⟩))).1
          have hl := ha (t, l) (by simp)
          have hm := hb (t, m) (by simp)
          have hperm : l.Perm m := (List.perm_ext_iff_of_nodup
            (hl.imp (fun h he => by rw [he] at h; exact absurd h (lt_irrefl _)))
            (hm.imp (fun h he => by rw [he] at h; exact absurd h (lt_irrefl _)))).2 hs
          exact hperm.eq_of_pairwise (fun x y _ _ h1 h2 => absurd h1 (by omega)) hl hm
        subst hlm
        rw [ih ht (fun a ha' => ha a (by simp [ha'])) (fun a ha' => hb a (by simp [ha'])) ?_ ⟨f0, p2⟩]
        intro e
        constructor
        · intro he; exact ((hcons l bx x0 e).1 ((h _).1 ((hcons l ax x0 e).2 ⟨p1, he⟩))).2
        · intro he; exact ((hcons l ax x0 e).1 ((h _).2 ((hcons l bx x0 e).2 ⟨p1, he⟩))).2

end generic

/-- A chunk made by a mirror function: new memory, same domain, contiguous. -/
structure FreshCopy (ops : SpanOps τ D) (V : D → Prop) (mem : Mem α) (src : View D) (space : Nat)
    (mem' : Mem α) (chunk : View D) : Prop where
  domain : chunk.span.dom = src.span.dom
  placed : chunk.space = space ∧ chunk.layout = .right
  /-- no existing view points into the memory of the chunk -/
  fresh : mem.length ≤ chunk.buf
  usable : Usable ops V mem' chunk
  distinct : DistinctCells ops chunk.span
  /-- everything that existed is unchanged -/
  frame : ∀ b p, b < mem.length → cell mem' b p = cell mem b p

/-- Same value at each element. -/
def SameValues (ops : SpanOps τ D) (mem : Mem α) (src : View D) (mem' : Mem α) (v : View D) : Prop :=
  ∀ e, tags e = ops.tags src.span.dom → ops.contains src.span.dom [e] = .ok true →
    ∃ x, valueAt ops mem src e = .ok x ∧ valueAt ops mem' v e = .ok x

/-- The claims on copies and mirrors for one kind of domain, whose objects satisfy `V` and have
`card d` elements. -/
structure CopyLaws (ops : SpanOps τ D) (eq : D → D → Res Bool) (V : D → Prop) (card : D → Nat) : Prop where
  /-- `parallel_deepcopy`, any order of the assignments -/
  deepcopy : ∀ {α : Type} (mem : Mem α) (dst src : View D) (sched : List (List U64)),
    Usable ops V mem dst → Usable ops V mem src → DistinctCells ops dst.span → NoClash ops dst src →
    card dst.span.dom < 2 ^ 64 → card src.span.dom < 2 ^ 64 →
    eq dst.span.dom src.span.dom = .ok true → ops.extents dst.span.dom = ops.extents src.span.dom →
    sched.Perm (MDSpan.indices (dst.span.md.dims.map Prod.fst)) →
    ∃ mem', parallelDeepcopy ops eq sched mem dst src = .ok (mem', dst) ∧ Copied ops mem dst src mem'
  /-- domains that differ by a point are rejected by the assertion -/
  deepcopy_assert : ∀ {α : Type} (mem : Mem α) (dst src : View D) (sched : List (List U64)),
    V dst.span.dom → V src.span.dom → card dst.span.dom < 2 ^ 64 → card src.span.dom < 2 ^ 64 →
    ops.tags dst.span.dom = ops.tags src.span.dom →
    (∃ e, tags e = ops.tags src.span.dom ∧ ops.contains dst.span.dom [e] ≠ ops.contains src.span.dom [e]) →
    parallelDeepcopy ops eq sched mem dst src = .abort
  /-- `parallel_copy`: `sched` is any order of the iterations -/
  copy : ∀ {α : Type} (mem : Mem α) (dst src : View D) (sched : List (List U64)) (d : D) (n : Vect τ),
    Usable ops V mem dst → Usable ops V mem src → DistinctCells ops dst.span → NoClash ops dst src →
    (∀ q ∈ ops.tags src.span.dom, q ∈ ops.tags dst.span.dom) →
    ops.select (ops.tags src.span.dom) dst.span.dom = .ok d → card d < 2 ^ 64 → card src.span.dom < 2 ^ 64 →
    eq d src.span.dom = .ok true →
    ops.extents dst.span.dom = .ok n →
    (if ops.tags dst.span.dom = ops.tags src.span.dom then
      ops.extents dst.span.dom = ops.extents src.span.dom ∧
        sched.Perm (MDSpan.indices (dst.span.md.dims.map Prod.fst))
    else sched.Perm (Support.policy n.vals)) →
    ∃ mem', parallelCopy ops eq sched mem dst src = .ok (mem', dst) ∧ Copied ops mem dst src mem'
  /-- a source that is not the projection of the destination is rejected by the assertion -/
  copy_assert : ∀ {α : Type} (mem : Mem α) (dst src : View D) (sched : List (List U64)) (d : D),
    V dst.span.dom → V src.span.dom → (∀ q ∈ ops.tags src.span.dom, q ∈ ops.tags dst.span.dom) →
    ops.select (ops.tags src.span.dom) dst.span.dom = .ok d → card d < 2 ^ 64 → card src.span.dom < 2 ^ 64 →
    (∃ e, tags e = ops.tags src.span.dom ∧ ops.contains d [e] ≠ ops.contains src.span.dom [e]) →
    parallelCopy ops eq sched mem dst src = .abort
  /-- `parallel_fill` -/
  fill : ∀ {α : Type} (mem : Mem α) (dst : View D) (x : α) (sched : List (List U64)),
    Usable ops V mem dst → sched.Perm (MDSpan.indices (dst.span.md.dims.map Prod.fst)) →
    ∃ mem', parallelFill (D := D) sched mem dst x = .ok (mem', dst) ∧
      (∀ e, tags e = ops.tags dst.span.dom → ops.contains dst.span.dom [e] = .ok true →
        valueAt ops mem' dst e = .ok x) ∧
      ∀ b p, ¬ (b = dst.buf ∧ ∃ e, tags e = ops.tags dst.span.dom ∧ dst.span.access ops [e] = .ok p) →
        cell mem' b p = cell mem b p
  /-- `create_mirror` -/
  mirror : ∀ {α : Type} (junk : Nat → α) (space : Nat) (mem : Mem α) (src : View D),
    Usable ops V mem src → src.layout = .right → card src.span.dom < 2 ^ 64 →
    ∃ mem' chunk, createMirror ops junk space mem src = .ok (mem', chunk) ∧
      FreshCopy ops V mem src space mem' chunk
  /-- `create_mirror_and_copy` -/
  mirror_and_copy : ∀ {α : Type} (junk : Nat → α) (space : Nat) (mem : Mem α) (src : View D) (sched : List (List U64)),
    Usable ops V mem src → src.layout = .right → card src.span.dom < 2 ^ 64 →
    sched.Perm (MDSpan.indices (src.span.md.dims.map Prod.fst)) →
    ∃ mem' chunk, createMirrorAndCopy ops eq junk sched space mem src = .ok (mem', chunk) ∧
      FreshCopy ops V mem src space mem' chunk ∧ SameValues ops mem src mem' chunk
  /-- `create_mirror_view_and_copy`: a view of the source if it is accessible, else a fresh copy -/
  mirror_view_and_copy : ∀ {α : Type} (accessible : Nat → Nat → Bool) (junk : Nat → α) (space : Nat) (mem : Mem α)
    (src : View D) (sched : List (List U64)),
    Usable ops V mem src → src.layout = .right → card src.span.dom < 2 ^ 64 →
    sched.Perm (MDSpan.indices (src.span.md.dims.map Prod.fst)) →
    ∃ mem' v, createMirrorViewAndCopy ops eq accessible junk sched space mem src = .ok (mem', v) ∧
      SameValues ops mem src mem' v ∧
      (if accessible space src.space then mem' = mem ∧ v = src else FreshCopy ops V mem src space mem' v)
  /-- `create_mirror_view` -/
  mirror_view : ∀ {α : Type} (accessible : Nat → Nat → Bool) (junk : Nat → α) (space : Nat) (mem : Mem α)
    (src : View D), Usable ops V mem src → src.layout = .right → card src.span.dom < 2 ^ 64 →
    ∃ mem' v, createMirrorView ops accessible junk space mem src = .ok (mem', v) ∧
      (if accessible space src.space then mem' = mem ∧ v = src else FreshCopy ops V mem src space mem' v)
  /-- `create_layout_right_view_and_copy` -/
  layout_right : ∀ {α : Type} (junk : Nat → α) (mem : Mem α) (src : View D) (sched : List (List U64)),
    Usable ops V mem src → card src.span.dom < 2 ^ 64 →
    sched.Perm (MDSpan.indices (src.span.md.dims.map Prod.fst)) →
    ∃ mem' v, createLayoutRightViewAndCopy ops eq junk sched mem src = .ok (mem', v) ∧
      v.layout = .right ∧ v.span.dom = src.span.dom ∧ SameValues ops mem src mem' v ∧
      (if src.layout = .right then mem' = mem ∧ v = src else FreshCopy ops V mem src src.space mem' v)

section laws

variable {ops : SpanOps τ D} {eq : D → D → Res Bool} {axesOf : D → List (τ × List U64)} {V : D → Prop}

private theorem contains_cart (K : SpanKind ops axesOf V) {d : D} (hV : V d) {e : Elem τ} (ht : tags e = ops.tags d) :
    ∃ c, ops.contains d [e] = .ok c ∧ (c = true ↔ e ∈ cart (axesOf d)) := by
  rw [K.tags _ hV] at ht
  exact K.contains _ hV [e] e (by simp [ht]) (ofTuples_one (K.nodup _ hV) ht)

/-- The assertion fails on domains with different points. -/
private theorem eq_false (K : SpanKind ops axesOf V) (E : EqKind ops eq axesOf V) {a b : D} (ha : V a) (hb : V b)
    (ht : ops.tags a = ops.tags b) (ca : ((axesOf a).map (fun x => x.2.length)).prod < 2 ^ 64)
    (cb : ((axesOf b).map (fun x => x.2.length)).prod < 2 ^ 64)
    (h : ∃ e, tags e = ops.tags b ∧ ops.contains a [e] ≠ ops.contains b [e]) : eq a b = .ok false := by
  obtain ⟨r, r1, _, r3⟩ := E.defined a b ha hb ht ca cb
  obtain ⟨e, he, hne⟩ := h
  obtain ⟨c, c1, c2⟩ := contains_cart K ha (e := e) (by rw [ht, he])
  obtain ⟨d, d1, d2⟩ := contains_cart K hb he
  cases r with
  | false => exact r1
  | true =>
    exfalso
    apply hne
    rw [c1, d1]
    congr 1
    rw [Bool.eq_iff_iff, c2, d2]
    rcases r3 rfl with h | ⟨h1, h2⟩
    · rw [h]
    · have := cart_nil_iff.2 h1 e
      have := cart_nil_iff.2 h2 e
      simp [*]

private theorem newChunk_ok (K : SpanKind ops axesOf V) (junk : Nat → α) (space : Nat) {mem : Mem α} {d : D} (hV : V d)
    (hc : ((axesOf d).map (fun a => a.2.length)).prod < 2 ^ 64) :
    ∃ mem' chunk, newChunk ops junk space mem d = .ok (mem', chunk) ∧ chunk.span.dom = d ∧
      chunk.space = space ∧ chunk.layout = .right ∧ chunk.buf = mem.length ∧ Usable ops V mem' chunk ∧
      DistinctCells ops chunk.span ∧ (∀ b < mem.length, mem'[b]? = mem[b]?) := by
  obtain ⟨s, h1, h2, h3, h4, h5, _⟩ := chunk_of K hV hc
  have hdims : LayoutTag.right.dims s.md.dims = s.md.dims := by
    rw [Span.ofDomain, K.extents _ hV] at h1
    obtain ⟨n, _, h1⟩ := Res.bind_eq_ok.1 h1
    have := Res.ok.inj h1
    rw [← this]
    simp only [LayoutTag.dims, MDSpan.map_fst_layoutRight]
  refine ⟨mem ++ [(List.range s.md.cells).map junk], ⟨mem.length, space, .right, s⟩, ?_, h2, rfl, rfl, rfl,
    ⟨h2 ▸ hV, h4, hdims, ?_⟩, h5.injective, ?_⟩
  · rw [newChunk, h1]; rfl
  · exact ⟨(List.range s.md.cells).map junk, by simp, by simp⟩
  · intro b hb
    rw [List.getElem?_append_left hb]

private theorem buf_lt {mem : Mem α} {v : View D} (h : Usable ops V mem v) : v.buf < mem.length := by
  obtain ⟨l, h1, _⟩ := h.alloc
  by_contra hn
  rw [List.getElem?_eq_none (by omega)] at h1; cases h1

private theorem sameValues_refl (K : SpanKind ops axesOf V) {mem : Mem α} {v : View D} (h : Usable ops V mem v) :
    SameValues ops mem v mem v := by
  intro e ht hc
  obtain ⟨c, c1, c2⟩ := contains_cart K h.valid ht
  have ht' := ht
  rw [K.tags _ h.valid] at ht'
  rw [hc] at c1
  obtain ⟨w, _, _, _, _, _, a, b⟩ := K.access_mem h.valid h.wf (es := [e]) (by simp [ht'])
    (ofTuples_one (K.nodup _ h.valid) ht') (c2.1 (Res.ok.inj c1).symm)
  obtain ⟨x, hx⟩ := Option.isSome_iff_exists.1 (cell_some h b)
  have : valueAt ops mem v e = .ok x := by rw [valueAt, a, Res.ok_bind, Mem.read_eq, hx]
  exact ⟨x, this, this⟩

/-- Allocation of a chunk followed by a deep copy. -/
private theorem allocCopy_ok (K : SpanKind ops axesOf V) (E : EqKind ops eq axesOf V) (junk : Nat → α) (space : Nat)
    {mem : Mem α} {src : View D} {sched : List (List U64)} (hs : Usable ops V mem src)
    (hc : ((axesOf src.span.dom).map (fun a => a.2.length)).prod < 2 ^ 64)
    (hp : sched.Perm (MDSpan.indices (src.span.md.dims.map Prod.fst))) :
    ∃ mem' chunk, (do
      let (mem1, chunk) ← newChunk ops junk space mem src.span.dom
      let (mem2, _) ← parallelDeepcopy ops eq sched mem1 chunk src
      pure (mem2, chunk)) = Res.ok (mem', chunk) ∧
      FreshCopy ops V mem src space mem' chunk ∧ SameValues ops mem src mem' chunk := by
  obtain ⟨mem1, chunk, h1, h2, h3, h4, h5, h6, h7, h8⟩ := newChunk_ok K junk space (mem := mem) hs.valid hc
  have hs1 : Usable ops V mem1 src := ⟨hs.valid, hs.wf, hs.layout, by
    obtain ⟨l, l1, l2⟩ := hs.alloc
    exact ⟨l, by rw [h8 _ (buf_lt hs)]; exact l1, l2⟩⟩
  obtain ⟨r, r1, r2, _⟩ := E.defined chunk.span.dom src.span.dom h6.valid hs.valid (by rw [h2]) (by rw [h2]; exact hc) hc
  have hclash : NoClash ops chunk src := by
    intro hb; have := buf_lt hs; omega
  have hexts : ops.extents chunk.span.dom = ops.extents src.span.dom := by rw [h2]
  obtain ⟨mem2, g1, g2⟩ := deepCopy_ok K h6 hs1 h7 hclash hexts (.inl (by rw [h2])) (sched := sched)
    (by rw [dims_eq_of_extents h6.wf hs.wf hexts]; exact hp)
  have hframe : ∀ b p, b < mem.length → cell mem2 b p = cell mem b p := by
    intro b p hb
    rw [g2.frame b p (by rintro ⟨h, _⟩; omega), cell, cell, h8 b hb]
  refine ⟨mem2, chunk, ?_, ⟨h2, ⟨h3, h4⟩, by omega, ⟨h6.valid, h6.wf, h6.layout, ?_⟩, h7, hframe⟩, ?_⟩
  · rw [h1]
    simp only [Res.ok_bind]
    rw [parallelDeepcopy, h2, decide_eq_true rfl, Res.guardIll_true, Res.ok_bind]
    rw [h2] at r1
    rw [r1, r2 h2, Res.ok_bind, Res.guardAbort_true, Res.ok_bind, g1]
    rfl
  · -- the allocation of the chunk keeps its length
    obtain ⟨l, l1, l2⟩ := h6.alloc
    have hlen : ∀ (js : List (List U64)) (m m' : Mem α) (db : Nat) (d : MDSpan) (sb : Nat) (s : MDSpan),
        deepCopy js m db d sb s = .ok m' → ∀ b : Nat, (m'[b]?).map List.length = (m[b]?).map List.length := by
      intro js m m' db d sb s h b
      rw [deepCopy] at h
      split at h
      · clear hp g1
        induction js generalizing m with
        | nil => have := Res.ok.inj h; rw [this]
        | cons j js ih =>
          rw [List.foldlM_cons] at h
          obtain ⟨m1, a1, a2⟩ := Res.bind_eq_ok.1 h
          rw [ih m1 a2]
          obtain ⟨p, _, a1⟩ := Res.bind_eq_ok.1 a1
          obtain ⟨q, _, a1⟩ := Res.bind_eq_ok.1 a1
          obtain ⟨x, _, a1⟩ := Res.bind_eq_ok.1 a1
          unfold Mem.write at a1
          cases hb : m[db]? with
          | none => simp [hb] at a1
          | some l =>
            simp only [hb] at a1
            obtain ⟨l', b1, b2⟩ := Res.bind_eq_ok.1 a1
            unfold Span.write at b1
            split at b1
            · have b1 := Res.ok.inj b1
              have b2 := Res.ok.inj b2
              rw [← b2, ← b1, List.getElem?_set]
              split
              · rename_i hdb
                subst hdb
                split
                · simp [hb]
                · rename_i hn; simp [List.getElem?_eq_none (Nat.le_of_not_lt hn)] at hb
              · rfl
            · cases b1
      · cases h
    have := hlen _ _ _ _ _ _ _ g1 chunk.buf
    rw [l1] at this
    cases hm : mem2[chunk.buf]? with
    | none => rw [hm] at this; simp at this
    | some l' => rw [hm] at this; exact ⟨l', rfl, by simp at this; omega⟩
  · intro e ht hcon
    obtain ⟨x, x1, x2⟩ := g2.value e e (by rw [h2]; exact ht) (by rw [h2]; exact hcon) ⟨ht, fun _ _ => rfl⟩
    refine ⟨x, ?_, x2⟩
    rw [← x1, valueAt, valueAt]
    congr 1
    funext p
    rw [Mem.read, Mem.read, h8 _ (buf_lt hs)]

private theorem laws_of (K : SpanKind ops axesOf V) (E : EqKind ops eq axesOf V) (card : D → Nat)
    (hcard : ∀ d, V d → card d = ((axesOf d).map (fun a => a.2.length)).prod) : CopyLaws ops eq V card where
  deepcopy mem dst src sched hd hs hinj hov cd cs heq hx hp := by
    have htag : ops.tags dst.span.dom = ops.tags src.span.dom := by
      rw [K.extents _ hd.valid, K.extents _ hs.valid] at hx
      rw [K.tags _ hd.valid, K.tags _ hs.valid]
      have := congrArg (List.map Prod.fst) (Res.ok.inj hx)
      simpa [Function.comp_def, tags] using this
    rw [hcard _ hd.valid] at cd
    rw [hcard _ hs.valid] at cs
    obtain ⟨r, r1, _, r3⟩ := E.defined _ _ hd.valid hs.valid htag cd cs
    rw [heq] at r1
    have hax := r3 (Res.ok.inj r1).symm
    obtain ⟨mem', g1, g2⟩ := deepCopy_ok K hd hs hinj hov hx (hax.imp id (fun h => h.1)) hp
    refine ⟨mem', ?_, g2⟩
    simp only [parallelDeepcopy, htag, decide_true, Res.guardIll_true, Res.ok_bind, heq, Res.guardAbort_true, g1, Res.pure_eq]
  deepcopy_assert mem dst src sched hd hs cd cs ht he := by
    rw [hcard _ hd] at cd
    rw [hcard _ hs] at cs
    simp only [parallelDeepcopy, ht, decide_true, Res.guardIll_true, Res.ok_bind,
      eq_false K E hd hs ht cd cs he, Res.guardAbort_false]
    rfl
  copy mem dst src sched d n hd hs hinj hov hsub hsel cd cs heq hn hp := by
    obtain ⟨d', e1, e2, e3, e4⟩ := K.select _ hd.valid (ops.tags src.span.dom)
      (by rw [K.tags _ hs.valid]; exact K.nodup _ hs.valid)
      (fun q hq => by rw [← K.tags _ hd.valid]; exact hsub q hq)
    rw [hsel] at e1
    obtain rfl := Res.ok.inj e1
    rw [hcard _ e2] at cd
    rw [hcard _ hs.valid] at cs
    obtain ⟨r, r1, _, r3⟩ := E.defined _ _ e2 hs.valid (by rw [K.tags _ e2, e3]) cd cs
    rw [heq] at r1
    have hax := r3 (Res.ok.inj r1).symm
    have hax' : (∀ q ∈ tags (axesOf src.span.dom), get q (axesOf dst.span.dom) = get q (axesOf src.span.dom)) ∨
        ∃ x ∈ axesOf dst.span.dom, x.2 = [] := by
      rcases hax with h | ⟨⟨x, x1, x2⟩, _⟩
      · left
        intro q hq
        rw [← h, e4 q (by rw [K.tags _ hs.valid]; exact hq)]
      · right
        have hg := get_of_mem (K.nodup _ e2) x1
        rw [e4 x.1 (by rw [← e3]; exact mem_tags_of_get hg)] at hg
        exact ⟨x, get_mem hg, x2⟩
    simp only [parallelCopy, hsel, Res.ok_bind, heq, Res.guardAbort_true]
    split at hp
    · rename_i ht
      rw [if_pos ht]
      have hax2 : axesOf dst.span.dom = axesOf src.span.dom ∨ ∃ x ∈ axesOf dst.span.dom, x.2 = [] := by
        refine hax'.imp (fun h => ?_) id
        refine ext_get ?_ (K.nodup _ hd.valid) ?_
        · rw [← K.tags _ hd.valid, ht, K.tags _ hs.valid]
        · intro q hq
          exact h q (by rw [← K.tags _ hs.valid, ← ht, K.tags _ hd.valid]; exact hq)
      obtain ⟨mem', g1, g2⟩ := deepCopy_ok K hd hs hinj hov hp.1 hax2 hp.2
      exact ⟨mem', by rw [g1]; rfl, g2⟩
    · rename_i ht
      rw [if_neg ht]
      have hne : ops.tags dst.span.dom ≠ [] := by
        intro h0
        refine ht ?_
        rw [h0]
        cases h : ops.tags src.span.dom with
        | nil => rfl
        | cons t ts => have := hsub t (by rw [h]; simp); rw [h0] at this; simp at this
      obtain ⟨mem', g1, g2⟩ := copyLoop_ok K hd hs hinj hov hsub hne hax' hn hp
      exact ⟨mem', by rw [g1]; rfl, g2⟩
  copy_assert mem dst src sched d hd hs hsub hsel cd cs he := by
    obtain ⟨d', e1, e2, e3, e4⟩ := K.select _ hd (ops.tags src.span.dom)
      (by rw [K.tags _ hs]; exact K.nodup _ hs) (fun q hq => by rw [← K.tags _ hd]; exact hsub q hq)
    rw [hsel] at e1
    obtain rfl := Res.ok.inj e1
    rw [hcard _ e2] at cd
    rw [hcard _ hs] at cs
    simp only [parallelCopy, hsel, Res.ok_bind, eq_false K E e2 hs (by rw [K.tags _ e2, e3]) cd cs he,
      Res.guardAbort_false]
    rfl
  fill mem dst x sched hd hp := fill_ok K hd x hp
  mirror junk space mem src hs hl hc := by
    rw [hcard _ hs.valid] at hc
    obtain ⟨mem1, chunk, h1, h2, h3, h4, h5, h6, h7, h8⟩ := newChunk_ok K junk space (mem := mem) hs.valid hc
    refine ⟨mem1, chunk, ?_, ⟨h2, ⟨h3, h4⟩, by omega, h6, h7, ?_⟩⟩
    · simp only [createMirror, hl, decide_true, Res.guardIll_true, Res.ok_bind, h1]
    · intro b p hb; rw [cell, cell, h8 b hb]
  mirror_and_copy junk space mem src sched hs hl hc hp := by
    rw [hcard _ hs.valid] at hc
    obtain ⟨mem', chunk, h1, h2, h3⟩ := allocCopy_ok K E junk space hs hc hp
    refine ⟨mem', chunk, ?_, h2, h3⟩
    simp only [createMirrorAndCopy, createMirror, hl, decide_true, Res.guardIll_true, Res.ok_bind]
    exact h1
  mirror_view_and_copy acc junk space mem src sched hs hl hc hp := by
    rw [hcard _ hs.valid] at hc
    simp only [createMirrorViewAndCopy, createMirrorAndCopy, createMirror, hl, decide_true, Res.guardIll_true, Res.ok_bind]
    by_cases ha : acc space src.space = true
    · simp only [ha, if_true]
      exact ⟨mem, src, rfl, sameValues_refl K hs, rfl, rfl⟩
    · obtain ⟨mem', chunk, h1, h2, h3⟩ := allocCopy_ok K E junk space hs hc hp
      rw [if_neg ha]
      exact ⟨mem', chunk, h1, h3, by rw [if_neg ha]; exact h2⟩
  mirror_view acc junk space mem src hs hl hc := by
    rw [hcard _ hs.valid] at hc
    simp only [createMirrorView, createMirror, hl, decide_true, Res.guardIll_true, Res.ok_bind]
    by_cases ha : acc space src.space = true
    · simp only [ha, if_true]
      exact ⟨mem, src, rfl, rfl, rfl⟩
    · obtain ⟨mem1, chunk, h1, h2, h3, h4, h5, h6, h7, h8⟩ := newChunk_ok K junk space (mem := mem) hs.valid hc
      rw [if_neg ha]
      refine ⟨mem1, chunk, h1, ?_⟩
      rw [if_neg ha]
      exact ⟨h2, ⟨h3, h4⟩, by omega, h6, h7, fun b p hb => by rw [cell, cell, h8 b hb]⟩
  layout_right junk mem src sched hs hc hp := by
    rw [hcard _ hs.valid] at hc
    rw [createLayoutRightViewAndCopy]
    by_cases hl : src.layout = .right
    · rw [if_pos hl]
      exact ⟨mem, src, rfl, hl, rfl, sameValues_refl K hs, by rw [if_pos hl]; exact ⟨rfl, rfl⟩⟩
    · obtain ⟨mem', chunk, h1, h2, h3⟩ := allocCopy_ok K E junk src.space hs hc hp
      rw [if_neg hl]
      exact ⟨mem', chunk, h1, h2.placed.2, h2.domain, h3, by rw [if_neg hl]; exact h2⟩

end laws

private theorem eqKind_dom : EqKind (Dom.spanOps (τ := τ)) Dom.eq axes Valid where
  defined a b ha hb ht ca cb := by
    have ht : tags a = tags b := ht
    rw [← card_eq ha.1] at ca
    rw [← card_eq hb.1] at cb
    obtain ⟨r, r1, _, r3⟩ := C08_eq_iff a b ha hb (by rw [SameTags, ht]) ca cb
    refine ⟨r, r1, ?_, ?_⟩
    · rintro rfl; exact r3.2 (fun e _ => Iff.rfl)
    · intro hr
      have hsp := r3.1 hr
      refine axes_of_cart ((spanKind_dom.tags a ha).symm.trans (ht.trans (spanKind_dom.tags b hb))) (spanKind_dom.sorted a ha) (spanKind_dom.sorted b hb) ?_
      intro e
      by_cases hte : tags e = tags a
      · rw [mem_cart_axes ha, mem_cart_axes hb]
        have := hsp e (by rw [SameTags, hte])
        rw [this, hte, ht]
      · constructor
        · intro h; exact absurd ((mem_cart_axes ha e).1 h).1 hte
        · intro h; exact absurd (((mem_cart_axes hb e).1 h).1.trans ht.symm) hte

private theorem eqKind_strided : EqKind (SDom.spanOps (τ := τ)) SDom.eq saxes SSafe where
  defined a b ha hb ht ca cb := by
    have ht : tags a = tags b := ht
    rw [← scard_eq ha.1.1] at ca
    rw [← scard_eq hb.1.1] at cb
    obtain ⟨r, r1, r3⟩ := C08_strided_eq_partial a b ha.1 hb.1 (by rw [SameTags, ht]) ca cb
    refine ⟨r, r1, ?_, ?_⟩
    · rintro rfl; exact r3.2 ⟨fun e _ => Iff.rfl, .inr (fun _ _ => rfl)⟩
    · intro hr
      have hsp := (r3.1 hr).1
      have hta : tags (saxes a) = tags a := (spanKind_strided.tags a ha).symm
      have htb : tags (saxes b) = tags b := (spanKind_strided.tags b hb).symm
      refine axes_of_cart (by rw [hta, htb, ht]) (spanKind_strided.sorted a ha) (spanKind_strided.sorted b hb) ?_
      intro e
      by_cases hte : tags e = tags a
      · rw [cart_inGrid ha.1 hte, cart_inGrid hb.1 (hte.trans ht)]
        exact hsp e (by rw [SameTags, hte])
      · constructor
        · intro h
          exact absurd (((mem_cart_get (by rw [hta]; exact ha.1.1)).1 h).1.trans hta) hte
        · intro h
          exact absurd ((((mem_cart_get (by rw [htb]; exact hb.1.1)).1 h).1.trans htb).trans ht.symm) hte

private theorem eqKind_sparse : EqKind (SpDom.spanOps (τ := τ)) SpDom.eq id SpValid where
  defined a b ha hb ht ca cb := by
    have ht : tags a = tags b := ht
    obtain ⟨r, r1, r3⟩ := C08_sparse_eq_iff a b ha hb (by rw [SameTags, ht]) ca cb
    refine ⟨r, r1, ?_, ?_⟩
    · rintro rfl; exact r3.2 (fun e _ => Iff.rfl)
    · intro hr
      have hsp := r3.1 hr
      refine axes_of_cart ht (spanKind_sparse.sorted a ha) (spanKind_sparse.sorted b hb) ?_
      intro e
      by_cases hte : tags e = tags a
      · rw [id, id, cart_inSparse ha hte, cart_inSparse hb (hte.trans ht)]
        exact hsp e (by rw [SameTags, hte])
      · constructor
        · intro h; exact absurd ((mem_cart_get ha.1).1 h).1 hte
        · intro h; exact absurd (((mem_cart_get hb.1).1 h).1.trans ht.symm) hte

/-- **C18, chunks on contiguous domains.** -/
theorem C18_contiguous : CopyLaws (Dom.spanOps (τ := τ)) Dom.eq Valid card :=
  laws_of spanKind_dom eqKind_dom card (fun d hd => card_eq hd.1)

/-- **C18, chunks on strided domains.** -/
theorem C18_strided : CopyLaws (SDom.spanOps (τ := τ)) SDom.eq SSafe scard :=
  laws_of spanKind_strided eqKind_strided scard (fun d hd => scard_eq hd.1.1)

/-- **C18, chunks on sparse domains.** -/
theorem C18_sparse : CopyLaws (SpDom.spanOps (τ := τ)) SpDom.eq SpValid (fun d => (d.map (fun p => p.2.length)).prod) :=
  laws_of spanKind_sparse eqKind_sparse _ (fun _ _ => rfl)

/-- Conversion of a span to a Kokkos view and back: same cells at the same indices. -/
theorem C18_kokkos_roundtrip (v : View D) (h : v.layout.dims v.span.md.dims = v.span.md.dims)
    (hp : ((v.span.md.dims.map Prod.fst).map BitVec.toNat).prod < 2 ^ 64) :
    v.kokkosView = v.span.md ∧ buildMdspan v.layout v.kokkosView = .ok v.span.md := by
  have hk : v.kokkosView = v.span.md := by rw [View.kokkosView, h]
  refine ⟨hk, ?_⟩
  rw [hk]
  have hc : kokkosCompatible v.layout v.span.md = true := by
    have key : ∀ ds : List (U64 × U64), (∀ d ∈ ds, d.1 ≠ 0) → reach ds + 1 = ((ds.map Prod.fst).map BitVec.toNat).prod →
        ((ds.map Prod.fst).map BitVec.toNat).prod < 2 ^ 64 →
        MDSpan.requiredSpan ds = MDSpan.prod (ds.map Prod.fst) := by
      intro ds h0 h1 h2
      rw [MDSpan.requiredSpan_eq (by omega), if_pos h0]
      apply BitVec.eq_of_toNat_eq
      rw [BitVec.toNat_ofNat, MDSpan.toNat_prod, h1]
    have zero : ∀ ds : List (U64 × U64), ¬ (∀ d ∈ ds, d.1 ≠ 0) →
        MDSpan.requiredSpan ds = MDSpan.prod (ds.map Prod.fst) := by
      intro ds h0
      rw [MDSpan.requiredSpan_zero h0]
      symm
      clear hp h hk
      induction ds with
      | nil => simp at h0
      | cons d ds ih =>
        rw [List.map_cons, MDSpan.prod]
        by_cases hd : d.1 = 0
        · simp [hd]
        · rw [ih (by intro hh; apply h0; intro x hx; rcases List.mem_cons.1 hx with rfl | hx; exact hd; exact hh x hx)]
          simp
    unfold kokkosCompatible
    by_cases h0 : ∀ d ∈ v.span.md.dims, d.1 ≠ 0
    · have h0' : ∀ n ∈ v.span.md.dims.map Prod.fst, n ≠ 0 := by
        intro n hn; obtain ⟨d, hd, rfl⟩ := List.mem_map.1 hn; exact h0 d hd
      cases hl : v.layout with
      | stride => rfl
      | right =>
        rw [hl] at h
        simp only [decide_eq_true_eq]
        refine key _ h0 ?_ hp
        have := (MDSpan.layoutRight_ok h0' hp).1
        rw [LayoutTag.dims] at h
        rw [h] at this; exact this
      | left =>
        rw [hl] at h
        simp only [decide_eq_true_eq]
        refine key _ h0 ?_ hp
        have := (MDSpan.layoutLeft_ok (acc := 1) h0' (by decide) (by simpa using hp)).1
        rw [LayoutTag.dims] at h
        rw [h] at this
        simpa using this
    · cases v.layout <;> simp [zero _ h0]
  rw [buildMdspan, hc, Res.guardAbort_true, Res.ok_bind, h]
  rfl

/-- A `LayoutRight` or `LayoutLeft` view with a padded stride cannot become a span. -/
theorem C18_kokkos_padded (l : LayoutTag) (hl : l ≠ .stride) (k : MDSpan)
    (h : MDSpan.requiredSpan k.dims ≠ MDSpan.prod (k.dims.map Prod.fst)) : buildMdspan l k = .abort := by
  have : kokkosCompatible l k = false := by
    cases l <;> simp_all [kokkosCompatible]
  rw [buildMdspan, this]; rfl

/-- **Remark.**  As documented, `create_mirror_view_and_copy` returns a view of the source whenever the
source is accessible from the requested space, also when its memory space is another one:
here the chunk asked for in space 0 aliases the source in space 1. -/
theorem C18_view_other_space : ∃ (accessible : Nat → Nat → Bool) (mem : Mem Nat) (src v : View (Dom Char)),
    Usable Dom.spanOps Valid mem src ∧ src.space = 1 ∧
    createMirrorViewAndCopy Dom.spanOps Dom.eq accessible (fun _ => 0) [[0], [1]] 0 mem src = .ok (mem, v) ∧
    v.buf = src.buf ∧ v.space ≠ 0 := by
  refine ⟨fun _ _ => true, [[5, 6]], ⟨0, 1, .right, ⟨⟨0, [(2, 1)], 2⟩, [('x', (3, 5))]⟩⟩,
    ⟨0, 1, .right, ⟨⟨0, [(2, 1)], 2⟩, [('x', (3, 5))]⟩⟩, ⟨⟨by decide, ?_⟩, ⟨⟨[('x', 2)], by decide, by decide⟩, ?_⟩, by decide, _, rfl, rfl⟩,
    rfl, by decide, rfl, by decide⟩
  · intro q hq
    have : q = 'x' := by simpa using hq
    subst this; decide
  · exact ⟨by decide, by intro _; decide⟩

/-- **Disagreement.**  Two empty domains compare equal whatever their extents, so the assertion of
`parallel_deepcopy` accepts a pair of chunks whose extents differ and `Kokkos::deep_copy` throws. -/
theorem C18_empty_extents : ∃ (mem : Mem Nat) (dst src : View (Dom Char)),
    Usable Dom.spanOps Valid mem dst ∧ Usable Dom.spanOps Valid mem src ∧
    Dom.eq dst.span.dom src.span.dom = .ok true ∧
    ∀ sched, parallelDeepcopy Dom.spanOps Dom.eq sched mem dst src = .throw := by
  refine ⟨[[], []], ⟨0, 0, .right, ⟨⟨0, [(0, 3), (3, 1)], 0⟩, [('x', (0, 0)), ('y', (0, 3))]⟩⟩,
    ⟨1, 0, .right, ⟨⟨0, [(2, 0), (0, 1)], 0⟩, [('x', (0, 2)), ('y', (0, 0))]⟩⟩,
    ⟨⟨by decide, ?_⟩, ⟨⟨[('x', 0), ('y', 3)], by decide, by decide⟩, ?_⟩, by decide, _, rfl, rfl⟩,
    ⟨⟨by decide, ?_⟩, ⟨⟨[('x', 2), ('y', 0)], by decide, by decide⟩, ?_⟩, by decide, _, rfl, rfl⟩, by decide, ?_⟩
  · intro q hq
    simp only [tags_cons, tags_nil, List.mem_cons, List.not_mem_nil, or_false] at hq
    rcases hq with rfl | rfl <;> decide
  · exact ⟨by decide, by intro h; exact absurd rfl (h (0, 3) (by simp))⟩
  · intro q hq
    simp only [tags_cons, tags_nil, List.mem_cons, List.not_mem_nil, or_false] at hq
    rcases hq with rfl | rfl <;> decide
  · exact ⟨by decide, by intro h; exact absurd rfl (h (0, 1) (by simp))⟩
  · intro sched
    have h1 : Dom.eq ([('x', (0, 0)), ('y', (0, 3))] : Dom Char) [('x', (0, 2)), ('y', (0, 0))] = .ok true := by decide
    have h2 : ∀ d s : MDSpan, d.dims.map Prod.fst ≠ s.dims.map Prod.fst →
        deepCopy sched ([[], []] : Mem Nat) 0 d 1 s = .throw := by
      intro d s h; rw [deepCopy, if_neg h]
    rw [parallelDeepcopy]
    simp only [h1, Res.ok_bind, Res.guardAbort_true]
    rw [h2 _ _ (by decide)]
    rfl

/-! Non-vacuity: a broadcast of a line over a plane in an arbitrary order, a transposed copy, and
the layout-right copy of a column-major chunk. -/

example : parallelCopy Dom.spanOps Dom.eq [[1, 0], [0, 1], [1, 1], [0, 0]] [[0, 0, 0, 0], [7, 8]]
    (⟨0, 0, .right, ⟨⟨0, [(2, 2), (2, 1)], 4⟩, [('x', (3, 5)), ('y', (1, 3))]⟩⟩ : View (Dom Char))
    ⟨1, 0, .right, ⟨⟨0, [(2, 1)], 2⟩, [('y', (1, 3))]⟩⟩
    = .ok ([[7, 8, 7, 8], [7, 8]], ⟨0, 0, .right, ⟨⟨0, [(2, 2), (2, 1)], 4⟩, [('x', (3, 5)), ('y', (1, 3))]⟩⟩) := by
  decide

example : parallelCopy Dom.spanOps Dom.eq [[1, 0], [0, 1], [1, 1], [0, 0]] [[0, 0, 0, 0], [5, 6, 7, 8]]
    (⟨0, 0, .right, ⟨⟨0, [(2, 2), (2, 1)], 4⟩, [('x', (3, 5)), ('y', (1, 3))]⟩⟩ : View (Dom Char))
    ⟨1, 0, .right, ⟨⟨0, [(2, 2), (2, 1)], 4⟩, [('y', (1, 3)), ('x', (3, 5))]⟩⟩
    = .ok ([[5, 7, 6, 8], [5, 6, 7, 8]], ⟨0, 0, .right, ⟨⟨0, [(2, 2), (2, 1)], 4⟩, [('x', (3, 5)), ('y', (1, 3))]⟩⟩) := by
  decide

example : createLayoutRightViewAndCopy Dom.spanOps Dom.eq (fun _ => 0) (MDSpan.indices [2, 2]) [[5, 6, 7, 8]]
    (⟨0, 0, .left, ⟨⟨0, [(2, 1), (2, 2)], 4⟩, [('x', (3, 5)), ('y', (1, 3))]⟩⟩ : View (Dom Char))
    = .ok ([[5, 6, 7, 8], [5, 7, 6, 8]], ⟨1, 0, .right, ⟨⟨0, [(2, 2), (2, 1)], 4⟩, [('x', (3, 5)), ('y', (1, 3))]⟩⟩) := by
  decide

end DDC.Props
