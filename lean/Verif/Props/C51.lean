import Verif.Lemmas.Print
import Verif.Props.C18

/-!
# C51 — printing
-/

namespace DDC.Props

open Tup Spec Spec.Print

/-! ## Options -/

/-- The invariant of the options: fewer than half of the threshold on each side. -/
def GoodOptions (o : DDC.Print.Options) : Prop := o.edgeitems.toNat < o.threshold.toNat / 2

instance (o : DDC.Print.Options) : Decidable (GoodOptions o) :=
  inferInstanceAs (Decidable (o.edgeitems.toNat < o.threshold.toNat / 2))

/-- Options accepted are those satisfying the invariant; others are ignored; the previous options are
returned in all cases. -/
theorem C51_set (cur o : DDC.Print.Options) :
    (DDC.Print.setPrintOptions cur o).2 = cur ∧
    (GoodOptions o → (DDC.Print.setPrintOptions cur o).1 = o) ∧
    (¬ GoodOptions o → (DDC.Print.setPrintOptions cur o).1 = cur) := by
  have h : (o.edgeitems < o.threshold / 2) ↔ GoodOptions o := by
    rw [BitVec.lt_def, BitVec.toNat_udiv]
    rfl
  refine ⟨rfl, fun g => ?_, fun g => ?_⟩
  · show DDC.Print.setWrite cur o = o
    rw [DDC.Print.setWrite, if_pos (h.2 g)]
  · show DDC.Print.setWrite cur o = cur
    rw [DDC.Print.setWrite, if_neg (fun x => g (h.1 x))]

/-- **C51, options.**  The invariant holds after every history of calls of `set_print_options`, and
the options are then the last valid ones that were requested. -/
theorem C51_options (requests : List DDC.Print.Options) :
    GoodOptions (requests.foldl (fun cur o => (DDC.Print.setPrintOptions cur o).1) DDC.Print.Options.default) ∧
    ∀ before o after, requests = before ++ o :: after → GoodOptions o → (∀ r ∈ after, ¬ GoodOptions r) →
      requests.foldl (fun cur o => (DDC.Print.setPrintOptions cur o).1) DDC.Print.Options.default = o := by
  constructor
  · have h0 : GoodOptions DDC.Print.Options.default := by decide
    generalize DDC.Print.Options.default = cur at h0
    induction requests generalizing cur with
    | nil => exact h0
    | cons r rs ih =>
      rw [List.foldl_cons]
      refine ih _ ?_
      by_cases g : GoodOptions r
      · rw [(C51_set cur r).2.1 g]; exact g
      · rw [(C51_set cur r).2.2 g]; exact h0
  · rintro before o after rfl g ha
    rw [List.foldl_append, List.foldl_cons, (C51_set _ o).2.1 g]
    generalize o = cur
    induction after generalizing cur with
    | nil => rfl
    | cons r rs ih =>
      rw [List.foldl_cons, (C51_set cur r).2.2 (ha r (by simp))]
      exact ih (fun r hr => ha r (by simp [hr])) _

/-- **Disagreement.**  `set_print_options` reads the old options before taking the lock.  While a
thread is inside `print_full`, another thread may thus get as "old options" the temporary ones; when
it later restores them, the options of the program are lost. -/
theorem C51_race : ∃ cur full request,
    -- thread A enters print_full
    ∃ s1, s1 = (DDC.Print.setPrintOptions cur full).1 ∧
    -- thread B enters set_print_options(request) and reads
    ∃ old, old = DDC.Print.setRead s1 ∧
    -- A restores and leaves, B takes the lock and writes
    ∃ s2, s2 = (DDC.Print.setPrintOptions s1 cur).1 ∧
    ∃ s3, s3 = DDC.Print.setWrite s2 request ∧
    -- later B restores what it was given
    (DDC.Print.setPrintOptions s3 old).1 ≠ cur ∧ GoodOptions cur ∧ s2 = cur ∧ s3 = request :=
  ⟨⟨10, 3⟩, ⟨BitVec.allOnes 64, 1⟩, ⟨20, 4⟩, _, rfl, _, rfl, _, rfl, _, rfl, by decide, by decide, by decide, by decide⟩

/-! ## Contents -/

section contents

variable {τ : Type} [DecidableEq τ] {α D : Type} {ops : SpanOps τ D} {eq : D → D → Res Bool}
  {axesOf : D → List (τ × List U64)} {V : D → Prop}

/-- The width given to the elements: the longest text of the elements shown. -/
def widthOf (threshold edge : Nat) (ax : List (τ × List U64)) (f : Elem τ → List Char) : Nat :=
  largest ((shownElems threshold edge ax).map (fun e => (f e).length))

private theorem content_of (K : SpanKind ops axesOf V) {card : D → Nat} (C : CopyLaws ops eq V card)
    (accessible : Nat → Nat → Bool) (junk : Nat → α) (sched1 sched2 : List (List U64)) (host : Nat)
    (fmt : α → List Char) (o : DDC.Print.Options) (mem : Mem α) (src : View D) (val : Elem τ → α)
    (hs : Usable ops V mem src) (hc : card src.span.dom < 2 ^ 64) (ho : GoodOptions o)
    (hfmt : ∀ x, (fmt x).length < 2 ^ 64)
    (hval : ∀ e ∈ cart (axesOf src.span.dom), valueAt ops mem src e = .ok (val e))
    (h1 : sched1.Perm (MDSpan.indices (src.span.md.dims.map Prod.fst)))
    (h2 : sched2.Perm (MDSpan.indices (src.span.md.dims.map Prod.fst))) :
    DDC.Print.printContent ops eq accessible junk sched1 sched2 host fmt o mem src =
      .ok (render o.threshold.toNat o.edgeitems.toNat
        (widthOf o.threshold.toNat o.edgeitems.toNat (axesOf src.span.dom) (fun e => fmt (val e))) 0
        (axesOf src.span.dom) (fun e => fmt (val e))) := by
  obtain ⟨m1, v1, a1, a2, a3, a4, a5⟩ := C.layout_right junk mem src sched1 hs hc h1
  have u1 : Usable ops V m1 v1 := by
    split at a5
    · obtain ⟨rfl, rfl⟩ := a5; exact hs
    · exact a5.usable
  have d1 : v1.span.md.dims.map Prod.fst = src.span.md.dims.map Prod.fst := by
    obtain ⟨x, x1, x2⟩ := u1.wf.exts
    obtain ⟨y, y1, y2⟩ := hs.wf.exts
    rw [a3, y1] at x1
    rw [x2, y2, Res.ok.inj x1]
  obtain ⟨m2, v2, b1, b2, b3⟩ := C.mirror_view_and_copy accessible junk host m1 v1 sched2 u1 a2
    (by rw [a3]; exact hc) (by rw [d1]; exact h2)
  have u2 : Usable ops V m2 v2 ∧ v2.layout = .right ∧ v2.span.dom = src.span.dom := by
    split at b3
    · obtain ⟨rfl, rfl⟩ := b3; exact ⟨u1, a2, a3⟩
    · exact ⟨b3.usable, b3.placed.2, by rw [b3.domain, a3]⟩
  obtain ⟨u2, r2, e2⟩ := u2
  have hold : PrintL.Holds m2 v2.buf v2.span.md (axesOf src.span.dom) val := by
    refine ⟨by rw [K.dims u2.valid u2.wf, e2], u2.wf.fits, ?_⟩
    intro is e hp
    have hin := picks_cart hp
    have htg : tags e = tags (axesOf src.span.dom) := (mem_cart.1 hin).1
    have ht : tags e = ops.tags src.span.dom := by rw [K.tags _ hs.valid]; exact htg
    have hcn : ops.contains src.span.dom [e] = .ok true := by
      obtain ⟨c, c1, c2⟩ := K.contains _ hs.valid [e] e (by simp [htg])
        (ofTuples_one (K.nodup _ hs.valid) htg)
      rw [c1, c2.2 hin]
    obtain ⟨x, x1, x2⟩ := a4 e ht hcn
    obtain ⟨y, y1, y2⟩ := b2 e (by rw [a3]; exact ht) (by rw [a3]; exact hcn)
    rw [x2] at y1
    rw [hval e hin] at x1
    rw [← Res.ok.inj y1, ← Res.ok.inj x1] at y2
    have hin2 : e ∈ cart (axesOf v2.span.dom) := by rw [e2]; exact hin
    obtain ⟨w, _, _, _, w4, _, a, _⟩ := K.access_mem u2.valid u2.wf (es := [e]) (by simp [htg, e2])
      (ofTuples_one (K.nodup _ u2.valid) (by rw [e2]; exact htg)) hin2
    rw [valueAt, a, Res.ok_bind] at y2
    rw [e2] at w4
    have hiw : is = vals w := by
      have hsort := K.sorted _ hs.valid
      clear * - hp w4 hsort
      generalize axesOf src.span.dom = ax at hp w4 hsort
      generalize vals w = js at w4
      induction ax generalizing is js e with
      | nil => cases is <;> cases e <;> cases js <;> simp_all [Picks]
      | cons p ax ih =>
        obtain ⟨t, l⟩ := p
        cases is with
        | nil => cases e <;> simp only [Picks] at hp
        | cons i is =>
          cases js with
          | nil => cases e <;> simp only [Picks] at w4
          | cons j js =>
            cases e with
            | nil => simp only [Picks] at hp
            | cons q e =>
              obtain ⟨u, x⟩ := q
              obtain ⟨rfl, h1, h2⟩ := hp
              obtain ⟨_, h1', h2'⟩ := w4
              rw [ih _ _ h2 (fun a ha => hsort a (List.mem_cons_of_mem _ ha)) _ h2']
              congr 1
              have hl := hsort _ (List.mem_cons_self ..)
              have hnd : l.Nodup := hl.imp (fun h he => by rw [he] at h; exact absurd h (lt_irrefl _))
              obtain ⟨p1, p2⟩ := List.getElem?_eq_some_iff.1 h1
              obtain ⟨q1, q2⟩ := List.getElem?_eq_some_iff.1 h1'
              exact BitVec.eq_of_toNat_eq ((List.Nodup.getElem_inj_iff hnd).1 (p2.trans q2.symm))
    rw [hiw]
    exact y2
  have hrank : v2.span.md.dims.length = (axesOf src.span.dom).length := by
    have := congrArg List.length hold.dims
    simpa using this
  obtain ⟨w, w1, w2⟩ := PrintL.findLargest_ok (fmt := fmt) ho _ hold (fun e => hfmt _)
  have hp := PrintL.printImpl_ok (fmt := fmt) ho (w := w) _ hold 0 (by
    intro hne e he
    rw [w2 hne]
    exact PrintL.le_largest (List.mem_map.2 ⟨e, he, rfl⟩))
  rw [DDC.Print.printContent, a1, Res.ok_bind]
  dsimp only
  rw [b1, Res.ok_bind]
  dsimp only
  rw [hrank, w1, Res.ok_bind, hp]
  congr 1
  by_cases hne : axesOf src.span.dom = []
  · rw [hne]; rfl
  · rw [w2 hne]; rfl

/-! ## What the text depends on -/

omit [DecidableEq τ] in
/-- The text is a function of the elements shown only: with the same texts for these, whatever the
elided ones, it is the same. -/
theorem C51_elided (threshold edge w level : Nat) (ax : List (τ × List U64)) (f g : Elem τ → List Char)
    (h : ∀ e ∈ shownElems threshold edge ax, f e = g e) :
    render threshold edge w level ax f = render threshold edge w level ax g := by
  induction ax generalizing level f g with
  | nil => exact h [] (by simp [shownElems, cart])
  | cons a ax ih =>
    obtain ⟨t, l⟩ := a
    have key : ∀ (F G : U64 → List Char) (sep bare : List Char), (∀ x ∈ shown threshold edge l, F x = G x) →
        row threshold edge sep bare F l = row threshold edge sep bare G l := by
      intro F G sep bare hFG
      rw [row, row]
      rw [shown] at hFG
      split
      · rename_i hc
        rw [if_pos hc] at hFG
        rw [List.map_congr_left hFG]
      · rename_i hc
        rw [if_neg hc] at hFG
        split
        · rfl
        · rw [List.map_congr_left (fun x hx => hFG x (List.mem_append_left _ hx)),
            List.map_congr_left (fun x hx => hFG x (List.mem_append_right _ hx))]
    have hx : ∀ x ∈ shown threshold edge l, ∀ e ∈ shownElems threshold edge ax, f ((t, x) :: e) = g ((t, x) :: e) := by
      intro x hx e he
      refine h _ ?_
      simp only [shownElems, List.map_cons, cart, List.mem_flatMap, List.mem_map]
      exact ⟨x, hx, e, he, rfl⟩
    cases ax with
    | nil =>
      simp only [render]
      rw [key _ (fun x => justify w (g [(t, x)])) _ _ (fun x hm => by
        rw [hx x hm [] (by simp [shownElems, cart])])]
    | cons b ax =>
      simp only [render]
      rw [key _ (fun x => render threshold edge w (level + 1) (b :: ax) (fun e => g ((t, x) :: e))) _ _
        (fun x hm => ih _ _ _ (hx x hm))]

/-! ## Headings -/

/-- The dimensions with their extents, separated by `×`; `Scalar` without dimensions. -/
def heading (dims : List (List Char × Nat)) : List Char :=
  if dims = [] then "Scalar".toList
  else join "×".toList (dims.map (fun d => d.1 ++ ['('] ++ Nat.toDigits 10 d.2 ++ [')']))

/-- **C51, heading**: the dimensions with their extents, separated by `×`; `Scalar` without
dimensions. -/
theorem C51_heading (dims : List (List Char × Nat)) (hd : ∀ d ∈ dims, d.2 < 2 ^ 63) :
    DDC.Print.printDimName (dims.map (fun d => (d.1, BitVec.ofNat 64 d.2))) = heading dims := by
  rw [heading]
  have one : ∀ d ∈ dims, DDC.Print.printSingleDimName d.1 (BitVec.ofNat 64 d.2) =
      d.1 ++ ['('] ++ Nat.toDigits 10 d.2 ++ [')'] := by
    intro d hm
    have h := hd d hm
    have hi : (BitVec.ofNat 64 d.2 : I64).toInt = d.2 := by
      rw [BitVec.toInt_eq_toNat_of_lt (by rw [BitVec.toNat_ofNat]; omega), BitVec.toNat_ofNat]
      congr 1
      omega
    rw [DDC.Print.printSingleDimName, DDC.Print.decimal, hi, if_neg (by omega)]
    rfl
  cases dims with
  | nil => rfl
  | cons d ds =>
    rw [if_neg (by simp)]
    simp only [List.map_cons, DDC.Print.printDimName]
    rw [one d (by simp)]
    have one' := fun x hx => one x (List.mem_cons_of_mem _ hx)
    clear one hd
    generalize d.1 ++ ['('] ++ Nat.toDigits 10 d.2 ++ [')'] = T
    induction ds generalizing T with
    | nil => simp [join]
    | cons e ds ih =>
      rw [List.map_cons, List.map_cons, List.flatMap_cons, one' e (by simp), PrintL.join_cons_cons,
        ← ih (fun x hx => one' x (List.mem_cons_of_mem _ hx))]
      simp

/-! ## The texts -/

omit [DecidableEq τ] in
/-- Without dimensions as long as the threshold, every element is shown, and the options do not
matter. -/
theorem C51_all_shown (threshold edge : Nat) (ax : List (τ × List U64)) (h : ∀ a ∈ ax, a.2.length < threshold) :
    shownElems threshold edge ax = cart ax ∧
    ∀ threshold' edge' w level f, (∀ a ∈ ax, a.2.length < threshold') →
      render threshold edge w level ax f = render threshold' edge' w level ax f := by
  constructor
  · rw [shownElems]
    congr 1
    refine (List.map_congr_left (fun a ha => ?_)).trans (List.map_id _)
    rw [shown, if_pos (h a ha)]
    rfl
  · intro threshold' edge' w level f h'
    induction ax generalizing level f with
    | nil => rfl
    | cons a ax ih =>
      obtain ⟨t, l⟩ := a
      have h1 := h (t, l) (by simp)
      have h2 := h' (t, l) (by simp)
      cases ax with
      | nil => simp only [render, row, if_pos h1, if_pos h2]
      | cons b ax =>
        simp only [render, row, if_pos h1, if_pos h2]
        simp only [ih (fun a ha => h a (by simp [ha])) _ _ (fun a ha => h' a (by simp [ha]))]

/-- **C51.**  What is printed for a chunk of any layout in any memory space. -/
structure PrintLaws (ops : SpanOps τ D) (eq : D → D → Res Bool) (axesOf : D → List (τ × List U64))
    (V : D → Prop) (accessible : Nat → Nat → Bool) (junk : Nat → α) (sched1 sched2 : List (List U64)) (host : Nat)
    (name : τ → List Char) (typeName : List Char) (fmt : α → List Char) (mem : Mem α) (src : View D)
    (val : Elem τ → α) : Prop where
  /-- `print_content`: exactly the text of the specification; no access fails, hence none is out of
  range. -/
  content : ∀ o, GoodOptions o →
    DDC.Print.printContent ops eq accessible junk sched1 sched2 host fmt o mem src =
      .ok (render o.threshold.toNat o.edgeitems.toNat
        (widthOf o.threshold.toNat o.edgeitems.toNat (axesOf src.span.dom) (fun e => fmt (val e))) 0
        (axesOf src.span.dom) (fun e => fmt (val e)))
  /-- `print`: preceded by the dimensions and the type of the chunk. -/
  print : ∀ o, GoodOptions o →
    DDC.Print.print ops eq accessible junk sched1 sched2 host name typeName fmt o mem src =
      .ok (heading ((axesOf src.span.dom).map (fun a => (name a.1, a.2.length))) ++ ['\n'] ++ typeName ++ ['\n'] ++
        render o.threshold.toNat o.edgeitems.toNat
        (widthOf o.threshold.toNat o.edgeitems.toNat (axesOf src.span.dom) (fun e => fmt (val e))) 0
        (axesOf src.span.dom) (fun e => fmt (val e)))
  /-- `print_full`: the text for a threshold above all extents; valid options are left as they were. -/
  full : ∀ cur, GoodOptions cur → ∀ threshold edge, (∀ a ∈ axesOf src.span.dom, a.2.length < threshold) →
    DDC.Print.printFull ops eq accessible junk sched1 sched2 host name typeName fmt cur mem src =
      .ok (heading ((axesOf src.span.dom).map (fun a => (name a.1, a.2.length))) ++ ['\n'] ++ typeName ++ ['\n'] ++
        render threshold edge (largest ((cart (axesOf src.span.dom)).map (fun e => (fmt (val e)).length))) 0
        (axesOf src.span.dom) (fun e => fmt (val e)), cur)

private theorem laws_of (K : SpanKind ops axesOf V) {card : D → Nat} (C : CopyLaws ops eq V card)
    (hcard : ∀ d, V d → card d = ((axesOf d).map (fun a => a.2.length)).prod)
    (accessible : Nat → Nat → Bool) (junk : Nat → α) (sched1 sched2 : List (List U64)) (host : Nat)
    (name : τ → List Char) (typeName : List Char) (fmt : α → List Char) (mem : Mem α) (src : View D) (val : Elem τ → α)
    (hs : Usable ops V mem src) (hc : ((axesOf src.span.dom).map (fun a => a.2.length)).prod < 2 ^ 64)
    (hfmt : ∀ x, (fmt x).length < 2 ^ 64)
    (hval : ∀ e ∈ cart (axesOf src.span.dom), valueAt ops mem src e = .ok (val e))
    (h1 : sched1.Perm (MDSpan.indices (src.span.md.dims.map Prod.fst)))
    (h2 : sched2.Perm (MDSpan.indices (src.span.md.dims.map Prod.fst))) :
    PrintLaws ops eq axesOf V accessible junk sched1 sched2 host name typeName fmt mem src val := by
  have content := fun o ho => content_of K C accessible junk sched1 sched2 host fmt o mem src val hs
    (by rw [hcard _ hs.valid]; exact hc) ho hfmt hval h1 h2
  have print : ∀ o, GoodOptions o → DDC.Print.print ops eq accessible junk sched1 sched2 host name typeName fmt o mem src =
      .ok (heading ((axesOf src.span.dom).map (fun a => (name a.1, a.2.length))) ++ ['\n'] ++ typeName ++ ['\n'] ++
        render o.threshold.toNat o.edgeitems.toNat
        (widthOf o.threshold.toNat o.edgeitems.toNat (axesOf src.span.dom) (fun e => fmt (val e))) 0
        (axesOf src.span.dom) (fun e => fmt (val e))) := by
    intro o ho
    have hh := C51_heading ((axesOf src.span.dom).map (fun a => (name a.1, a.2.length))) (by
      intro d hd
      obtain ⟨a, ha, rfl⟩ := List.mem_map.1 hd
      exact K.small _ hs.valid a ha)
    rw [List.map_map] at hh
    rw [DDC.Print.print, DDC.Print.printTypeInfo, K.extents _ hs.valid, Res.ok_bind, List.map_map]
    rw [content o ho]
    refine (congrArg Res.ok ?_)
    refine congrArg (· ++ _) ?_
    refine congrArg (fun t => t ++ ['\n'] ++ typeName ++ ['\n']) ?_
    exact hh
  refine ⟨content, print, ?_⟩
  intro cur hcur threshold edge hthr
  have hfull : GoodOptions ⟨BitVec.allOnes 64, 1⟩ := by decide
  have hbig : ∀ a ∈ axesOf src.span.dom, a.2.length < (BitVec.allOnes 64).toNat := by
    intro a ha
    have := K.small _ hs.valid a ha
    have e : (BitVec.allOnes 64).toNat = 2 ^ 64 - 1 := by decide
    omega
  obtain ⟨s1, s2⟩ := C51_all_shown _ (1 : U64).toNat _ hbig
  rw [DDC.Print.printFull]
  dsimp only
  rw [show DDC.Print.setPrintOptions cur ⟨BitVec.allOnes 64, 1⟩ = (⟨BitVec.allOnes 64, 1⟩, cur) from
    Prod.ext ((C51_set cur _).2.1 hfull) (C51_set cur _).1]
  dsimp only
  rw [print _ hfull, Res.ok_bind, (C51_set _ cur).2.1 hcur]
  dsimp only
  rw [widthOf, s1, s2 threshold edge _ _ _ hthr]
  rfl

/-- **C51, chunks on contiguous domains.** -/
theorem C51_contiguous (accessible : Nat → Nat → Bool) (junk : Nat → α) (sched1 sched2 : List (List U64)) (host : Nat)
    (name : τ → List Char) (typeName : List Char) (fmt : α → List Char) (mem : Mem α) (src : View (Dom τ))
    (val : Elem τ → α) (hs : Usable Dom.spanOps Valid mem src)
    (hc : ((axes src.span.dom).map (fun a => a.2.length)).prod < 2 ^ 64) (hfmt : ∀ x, (fmt x).length < 2 ^ 64)
    (hval : ∀ e ∈ cart (axes src.span.dom), valueAt Dom.spanOps mem src e = .ok (val e))
    (h1 : sched1.Perm (MDSpan.indices (src.span.md.dims.map Prod.fst)))
    (h2 : sched2.Perm (MDSpan.indices (src.span.md.dims.map Prod.fst))) :
    PrintLaws Dom.spanOps Dom.eq axes Valid accessible junk sched1 sched2 host name typeName fmt mem src val :=
  laws_of spanKind_dom C18_contiguous (fun _ hd => card_eq hd.1) accessible junk sched1 sched2 host name typeName fmt
    mem src val hs hc hfmt hval h1 h2

/-- **C51, chunks on strided domains.** -/
theorem C51_strided (accessible : Nat → Nat → Bool) (junk : Nat → α) (sched1 sched2 : List (List U64)) (host : Nat)
    (name : τ → List Char) (typeName : List Char) (fmt : α → List Char) (mem : Mem α) (src : View (SDom τ))
    (val : Elem τ → α) (hs : Usable SDom.spanOps SSafe mem src)
    (hc : ((saxes src.span.dom).map (fun a => a.2.length)).prod < 2 ^ 64) (hfmt : ∀ x, (fmt x).length < 2 ^ 64)
    (hval : ∀ e ∈ cart (saxes src.span.dom), valueAt SDom.spanOps mem src e = .ok (val e))
    (h1 : sched1.Perm (MDSpan.indices (src.span.md.dims.map Prod.fst)))
    (h2 : sched2.Perm (MDSpan.indices (src.span.md.dims.map Prod.fst))) :
    PrintLaws SDom.spanOps SDom.eq saxes SSafe accessible junk sched1 sched2 host name typeName fmt mem src val :=
  laws_of spanKind_strided C18_strided (fun _ hd => scard_eq hd.1.1) accessible junk sched1 sched2 host name typeName
    fmt mem src val hs hc hfmt hval h1 h2

/-- **C51, chunks on sparse domains.** -/
theorem C51_sparse (accessible : Nat → Nat → Bool) (junk : Nat → α) (sched1 sched2 : List (List U64)) (host : Nat)
    (name : τ → List Char) (typeName : List Char) (fmt : α → List Char) (mem : Mem α) (src : View (SpDom τ))
    (val : Elem τ → α) (hs : Usable SpDom.spanOps SpValid mem src)
    (hc : (src.span.dom.map (fun a => a.2.length)).prod < 2 ^ 64) (hfmt : ∀ x, (fmt x).length < 2 ^ 64)
    (hval : ∀ e ∈ cart src.span.dom, valueAt SpDom.spanOps mem src e = .ok (val e))
    (h1 : sched1.Perm (MDSpan.indices (src.span.md.dims.map Prod.fst)))
    (h2 : sched2.Perm (MDSpan.indices (src.span.md.dims.map Prod.fst))) :
    PrintLaws SpDom.spanOps SpDom.eq id SpValid accessible junk sched1 sched2 host name typeName fmt mem src val :=
  laws_of spanKind_sparse C18_sparse (fun _ _ => rfl) accessible junk sched1 sched2 host name typeName fmt
    mem src val hs hc hfmt hval h1 h2

end contents

/-! ## Concrete cases -/

/-- A two-dimensional chunk stored with its first dimension contiguous. -/
def printedSrc : View (Dom Char) :=
  ⟨0, 0, .left, ⟨⟨0, [(2, 1), (3, 2)], 6⟩, [('x', (3, 5)), ('y', (7, 10))]⟩⟩

private def printedVal (e : Elem Char) : Nat :=
  (match get 'x' e with | .ok x => (x.toNat - 3) * 10 | _ => 0) + (match get 'y' e with | .ok y => y.toNat - 7 | _ => 0)

private theorem printedSrc_usable : Usable (α := Nat) Dom.spanOps Valid [[0, 10, 1, 11, 2, 12]] printedSrc := by
  refine ⟨⟨by decide, ?_⟩, ⟨⟨[('x', 2), ('y', 3)], by decide, by decide⟩, ⟨by decide, by intro _; decide⟩⟩, by decide,
    _, rfl, rfl⟩
  intro q hq
  simp only [printedSrc, tags_cons, tags_nil, List.mem_cons, List.not_mem_nil, or_false] at hq
  rcases hq with rfl | rfl <;> decide

/-- The hypotheses of `C51_contiguous` can be met. -/
example : PrintLaws Dom.spanOps Dom.eq axes Valid (fun _ _ => false) (fun _ => 99)
    (MDSpan.indices [2, 3]).reverse (MDSpan.indices [2, 3]) 1 (fun c => [c]) "Chunk".toList
    (fun n => if n < 10 then [Char.ofNat (48 + n)] else ['1', Char.ofNat (38 + n)]) [[0, 10, 1, 11, 2, 12]] printedSrc
    printedVal :=
  C51_contiguous _ _ _ _ _ _ _ _ _ _ _ printedSrc_usable (by decide) (by intro x; split <;> simp)
    (by decide +kernel) (List.reverse_perm _) (List.Perm.refl _)

/-- The whole text. -/
example : (DDC.Print.print Dom.spanOps Dom.eq (fun _ _ => false) (fun _ => 99)
    (MDSpan.indices [2, 3]).reverse (MDSpan.indices [2, 3]) 1 (fun c => [c]) "Chunk".toList
    (fun n => if n < 10 then [Char.ofNat (48 + n)] else ['1', Char.ofNat (38 + n)]) ⟨10, 3⟩ [[0, 10, 1, 11, 2, 12]]
    printedSrc) = .ok "x(2)×y(3)\nChunk\n[[ 0  1  2]\n [10 11 12]]".toList := by
  decide +kernel

/-- The text with an ellipsis. -/
example : (DDC.Print.printContent Dom.spanOps Dom.eq (fun _ _ => false) (fun _ => 99)
    (MDSpan.indices [2, 3]).reverse (MDSpan.indices [2, 3]) 1
    (fun n => if n < 10 then [Char.ofNat (48 + n)] else ['1', Char.ofNat (38 + n)]) ⟨3, 0⟩ [[0, 10, 1, 11, 2, 12]]
    printedSrc) = .ok "[[... ]\n [... ]]".toList := by
  decide +kernel

/-- The specification on a dimension longer than the threshold. -/
example : render 4 1 2 0 [('x', [0, 1]), ('y', [0, 1, 2, 3])] (fun e => [Char.ofNat (97 + (vals e).foldl (fun n x => 4 * n + x.toNat) 0)])
    = "[[ a ...  d]\n [ e ...  h]]".toList := by
  decide +kernel

/-- Histories with accepted and refused options. -/
example : [(⟨20, 10⟩ : DDC.Print.Options), ⟨20, 9⟩, ⟨3, 1⟩].foldl
    (fun cur o => (DDC.Print.setPrintOptions cur o).1) DDC.Print.Options.default = ⟨20, 9⟩ := by
  decide

end DDC.Props
