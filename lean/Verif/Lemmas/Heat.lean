import Verif.Model.HeatEquation
import Verif.Lemmas.Grid2

/-!
# The time loop of the heat equation
-/

namespace DDC.Heat

open Tup Spec Props Grid2
open One (seg el vec)

set_option linter.unusedSectionVars false

variable {α : Type}

theorem xy : (Dim.x : Dim) ≠ .y := by decide

theorem loop_one {σ : Type} (body : Int → σ → Res σ) (s : σ) : Support.loop 1 body 0 s = body 0 s := by
  have h := Support.loop_eq 1 body 1 0 (by simp) s
  rw [h]
  simp only [List.range_one, List.foldlM_cons, List.foldlM_nil, Nat.cast_zero, Int.add_zero]
  cases body 0 s <;> rfl

theorem index_seg {τ : Type} [DecidableEq τ] (t : τ) (x y : Nat) :
    Dom.index (seg t x y) (BitVec.ofInt 64 0) = .ok (BitVec.ofNat 64 x) := by
  simp [Dom.index, seg, Dom.begin, DomIter.index]

/-- A chunk on the ghosted domain. -/
structure Grid (nx ny N : Nat) (pos : Nat → Nat → Nat) (s : Span (Dom Dim)) : Prop where
  chart : Chart2 Dim.x Dim.y s 0 (nx + 2) 0 (ny + 2) pos
  inj : ∀ i j i' j', i < nx + 2 → j < ny + 2 → i' < nx + 2 → j' < ny + 2 → pos i j = pos i' j' → i = i' ∧ j = j'
  cells : s.md.cells = N
  sx : 1 ≤ nx
  sy : 1 ≤ ny

variable {nx ny N : Nat} {pos : Nat → Nat → Nat} {s : Span (Dom Dim)}

theorem fillX_ok (G : Grid nx ny N pos s) {mem : Mem α} {v : View (Dom Dim)} (hv : v.span = s) (ha : Alloc mem v.buf N)
    {g m : Nat} (hg : g < nx + 2) (hm : m < nx + 2) (hgm : g ≠ m) {order : Int → List (List U64)}
    (ho : (order 0).Perm (MDSpan.indices [BitVec.ofNat 64 ny])) :
    ∃ mem', fillX order (seg Dim.x g (g + 1)) (seg Dim.x m (m + 1)) (seg Dim.y 1 (ny + 1)) v mem = .ok mem' ∧
      Alloc mem' v.buf N ∧
      (∀ j, 1 ≤ j → j < ny + 1 → cell mem' v.buf (pos g j) = cell mem v.buf (pos m j)) ∧
      (∀ b p, (b = v.buf → ∀ j, 1 ≤ j → j < ny + 1 → p ≠ pos g j) → cell mem' b p = cell mem b p) := by
  subst hv
  have hy := G.sy
  obtain ⟨d1, d2, d3, d4⟩ := G.chart.slice_x xy (Nat.zero_le g) hg
  obtain ⟨e1, e2, e3, e4⟩ := d4.restrict (c' := 1) (d' := ny + 1) (by omega) (by omega) (by omega)
  obtain ⟨f1, f2, f3, f4⟩ := G.chart.slice_x xy (Nat.zero_le m) hm
  obtain ⟨k1, k2, k3, k4⟩ := f4.restrict (c' := 1) (d' := ny + 1) (by omega) (by omega) (by omega)
  obtain ⟨mem', m1, m2, m3, m4⟩ := copy1 (N := N) (mem := mem) (dst := ⟨v.buf, v.space, .stride, e1⟩)
    (src := ⟨v.buf, v.space, .stride, k1⟩) rfl rfl rfl ha (by rw [e3, d3, G.cells]) (by rw [k3, f3, G.cells]) e4 k4
    (by omega)
    (by intro i j i1 i2 j1 j2 h; exact (G.inj g i g j hg (by omega) hg (by omega) h).2)
    (by intro i j i1 i2 j1 j2 h; exact hgm (G.inj g i m j hg (by omega) hm (by omega) h).1)
    (by simpa using ho)
  refine ⟨mem', ?_, m2, m3, m4⟩
  have hx1 : (seg Dim.x g (g + 1)) = [(Dim.x, (BitVec.ofNat 64 g, BitVec.ofNat 64 (g + 1)))] := rfl
  rw [fillX, One.extents_nat Dim.x (by omega), Res.ok_bind]
  have hv1 : Vect.value (vec Dim.x (g + 1 - g)) = .ok (1 : I64) := by
    rw [show g + 1 - g = 1 by omega]; rfl
  have d2' : v.span.slice Dom.spanOps [(Dim.x, BitVec.ofNat 64 g)] = .ok d1 := d2
  have f2' : v.span.slice Dom.spanOps [(Dim.x, BitVec.ofNat 64 m)] = .ok f1 := f2
  rw [hv1, Res.ok_bind, show (1 : I64).toInt = 1 by decide, loop_one]
  simp only [index_seg, Res.ok_bind, View.sliceAt, d2', View.restrictTo, e2, f2', k2, m1]

theorem fillY_ok (G : Grid nx ny N pos s) {mem : Mem α} {v : View (Dom Dim)} (hv : v.span = s) (ha : Alloc mem v.buf N)
    {g m : Nat} (hg : g < ny + 2) (hm : m < ny + 2) (hgm : g ≠ m) {order : Int → List (List U64)}
    (ho : (order 0).Perm (MDSpan.indices [BitVec.ofNat 64 nx])) :
    ∃ mem', fillY order (seg Dim.y g (g + 1)) (seg Dim.y m (m + 1)) (seg Dim.x 1 (nx + 1)) v mem = .ok mem' ∧
      Alloc mem' v.buf N ∧
      (∀ i, 1 ≤ i → i < nx + 1 → cell mem' v.buf (pos i g) = cell mem v.buf (pos i m)) ∧
      (∀ b p, (b = v.buf → ∀ i, 1 ≤ i → i < nx + 1 → p ≠ pos i g) → cell mem' b p = cell mem b p) := by
  subst hv
  have hx := G.sx
  obtain ⟨d1, d2, d3, d4⟩ := G.chart.restrict_x xy (a' := 1) (b' := nx + 1) (by omega) (by omega) (by omega)
  obtain ⟨e1, e2, e3, e4⟩ := d4.slice_y xy (Nat.zero_le g) hg
  obtain ⟨k1, k2, k3, k4⟩ := d4.slice_y xy (Nat.zero_le m) hm
  obtain ⟨mem', m1, m2, m3, m4⟩ := copy1 (N := N) (mem := mem) (dst := ⟨v.buf, v.space, .stride, e1⟩)
    (src := ⟨v.buf, v.space, .stride, k1⟩) rfl rfl rfl ha (by rw [e3, d3, G.cells]) (by rw [k3, d3, G.cells]) e4 k4
    (by omega)
    (by intro i j i1 i2 j1 j2 h; exact (G.inj i g j g (by omega) hg (by omega) hg h).1)
    (by intro i j i1 i2 j1 j2 h; exact hgm (G.inj i g j m (by omega) hg (by omega) hm h).2)
    (by simpa using ho)
  refine ⟨mem', ?_, m2, m3, m4⟩
  rw [fillY, One.extents_nat Dim.y (by omega), Res.ok_bind]
  have hv1 : Vect.value (vec Dim.y (g + 1 - g)) = .ok (1 : I64) := by
    rw [show g + 1 - g = 1 by omega]; rfl
  have e2' : d1.slice Dom.spanOps [(Dim.y, BitVec.ofNat 64 g)] = .ok e1 := e2
  have k2' : d1.slice Dom.spanOps [(Dim.y, BitVec.ofNat 64 m)] = .ok k1 := k2
  rw [hv1, Res.ok_bind, show (1 : I64).toInt = 1 by decide, loop_one]
  simp only [index_seg, Res.ok_bind, View.sliceAt, d2, View.restrictTo, e2', k2', m1]

/-- Iterations that each write one cell of buffer `bn` and read elsewhere. -/
theorem fold_cells {β : Type} {f : β → Mem α → Res (Mem α)} {bn : Nat} (posE : β → Nat) (val : β → α) (mem : Mem α)
    (es : List β) (hinj : ∀ e ∈ es, ∀ e' ∈ es, posE e = posE e' → e = e')
    (hf : ∀ e ∈ es, ∀ m : Mem α, (∀ b p, b ≠ bn → cell m b p = cell mem b p) →
      (∀ p, (cell m bn p).isSome ↔ (cell mem bn p).isSome) →
      ∃ m', f e m = .ok m' ∧ ∀ b p, cell m' b p = if b = bn ∧ p = posE e then some (val e) else cell m b p)
    (hs : ∀ e ∈ es, (cell mem bn (posE e)).isSome) :
    ∃ m', es.foldlM (fun m e => f e m) mem = .ok m' ∧ (∀ e ∈ es, cell m' bn (posE e) = some (val e)) ∧
      (∀ b p, (b = bn → ∀ e ∈ es, p ≠ posE e) → cell m' b p = cell mem b p) := by
  suffices h : ∀ (l : List β) (m : Mem α), (∀ e ∈ l, e ∈ es) → (∀ b p, b ≠ bn → cell m b p = cell mem b p) →
      (∀ p, (cell m bn p).isSome ↔ (cell mem bn p).isSome) →
      ∃ m', l.foldlM (fun m e => f e m) m = .ok m' ∧ (∀ e ∈ l, cell m' bn (posE e) = some (val e)) ∧
        (∀ b p, (b = bn → ∀ e ∈ l, p ≠ posE e) → cell m' b p = cell m b p) from
    h es mem (fun _ h => h) (fun _ _ _ => rfl) (fun _ => Iff.rfl)
  intro l
  induction l with
  | nil => intro m _ _ _; exact ⟨m, rfl, by simp, by simp⟩
  | cons e l ih =>
    intro m hl h1 h2
    obtain ⟨m1, g1, g2⟩ := hf e (hl e (by simp)) m h1 h2
    obtain ⟨m2, k1, k2, k3⟩ := ih m1 (fun x hx => hl x (by simp [hx]))
      (by
        intro b p hb
        rw [g2, if_neg (by tauto), h1 b p hb])
      (by
        intro p
        rw [g2]
        split
        · rename_i h
          rw [h.2]
          simp [hs e (hl e (by simp))]
        · exact h2 p)
    refine ⟨m2, by rw [List.foldlM_cons, g1, Res.ok_bind, k1], ?_, ?_⟩
    · intro x hx
      by_cases hxl : x ∈ l
      · exact k2 x hxl
      · have hxe : x = e := by simpa [hxl] using hx
        subst hxe
        rw [k3, g2, if_pos ⟨rfl, rfl⟩]
        intro _ y hy h
        have := hinj x (hl x (by simp)) y (hl y (by simp [hy])) h
        subst this
        exact hxl hy
    · intro b p h
      rw [k3 b p (fun hb x hx => h hb x (by simp [hx])), g2, if_neg]
      rintro ⟨hb, hp⟩
      exact h hb e (by simp) hp

/-- The iterations of a loop over a product of intervals. -/
theorem schedule2 {a b c d : Nat} (h1 : a ≤ b) (h2 : b < 2 ^ 63) (h3 : c ≤ d) (h4 : d < 2 ^ 63) {sched : List (List I64)}
    (hp : sched.Perm (Support.policy [BitVec.ofNat 64 (b - a), BitVec.ofNat 64 (d - c)])) :
    ∃ es : List (Elem Dim), (∀ e, e ∈ es ↔ ∃ i j, a ≤ i ∧ i < b ∧ c ≤ j ∧ j < d ∧ e = pt Dim.x Dim.y i j) ∧
      ∀ (σ : Type) (f : Elem Dim → σ → Res σ) (m : σ),
        Support.runSchedule (Dom.support (seg2 Dim.x Dim.y a b c d)) f sched m = es.foldlM (fun m e => f e m) m := by
  have hV := seg2_valid xy h1 h2 h3 h4
  have hE : Elements (Dom.support (seg2 Dim.x Dim.y a b c d)) (cart (axes (seg2 Dim.x Dim.y a b c d))) :=
    .contiguous hV (nodup_of_lex (lex_axes _)) (mem_cart_axes hV)
  have hx := (grid_dom hV).extents
  have hlen : ∀ x y : Nat, x ≤ y → y < 2 ^ 63 → (axis (BitVec.ofNat 64 x) (BitVec.ofNat 64 y)).length = y - x := by
    intro x y hxy hy
    rw [length_axis, toNat_small (by omega), toNat_small (by omega)]
  obtain ⟨es, e1, e2⟩ := C19_schedule hE hx (sched := sched) (by
    simp only [axes, seg2, List.map_cons, List.map_nil, vals, hlen a b h1 h2, hlen c d h3 h4]
    exact hp)
  refine ⟨es, ?_, e2⟩
  intro e
  rw [e1.mem_iff, mem_cart_axes hV]
  constructor
  · rintro ⟨ht, hc⟩
    exact (inBox2 xy h1 h2 h3 h4 ht).1 ((cart_inBox hV ht).1 ((mem_cart_axes hV e).2 ⟨ht, hc⟩))
  · rintro ⟨i, j, g1, g2, g3, g4, rfl⟩
    have ht : tags (pt Dim.x Dim.y i j) = tags (seg2 Dim.x Dim.y a b c d) := rfl
    exact (mem_cart_axes hV _).1 ((cart_inBox hV ht).2 ((inBox2 xy h1 h2 h3 h4 rfl).2 ⟨i, j, g1, g2, g3, g4, rfl⟩))

theorem select_x (i j : Nat) : Tup.select [Dim.x] (pt Dim.x Dim.y i j) = .ok (el Dim.x i) := by
  simp [Tup.select, ofTuples, take, TypeSeq.contains, TypeSeq.present, pt, el]

theorem select_y (i j : Nat) : Tup.select [Dim.y] (pt Dim.x Dim.y i j) = .ok (el Dim.y j) := by
  simp [Tup.select, ofTuples, take, TypeSeq.contains, TypeSeq.present, pt, el]

theorem addInt_el (t : Dim) (i : Nat) : Elem.addInt (el t i) 1 = .ok (el t (i + 1)) := by
  rw [el, Elem.addInt, el, BitVec.ofNat_add]; rfl

theorem subInt_el (t : Dim) {i : Nat} (h : 1 ≤ i) : Elem.subInt (el t i) 1 = .ok (el t (i - 1)) := by
  have : (1 : U64) = BitVec.ofNat 64 1 := rfl
  rw [el, Elem.subInt, el, this, One.ofNat_sub h]

section scheme

variable {K : Type} [Field K] [LinearOrder K]

theorem get_ok {mem : Mem K} {v : View (Dom Dim)} {a b c d : Nat} (h : Chart2 Dim.x Dim.y v.span a b c d pos) {i j : Nat}
    (h1 : a ≤ i) (h2 : i < b) (h3 : c ≤ j) (h4 : j < d) {x : K} (hx : cell mem v.buf (pos i j) = some x) :
    View.get mem v [el Dim.x i, el Dim.y j] = .ok x := by
  rw [View.get, h.access xy h1 h2 h3 h4, Res.ok_bind, Mem.read_eq, hx]

/-- An iteration of the kernel. -/
theorem kernel_ok {add : K → K → K} {incX incY : Elem Dim → K → K → K → Res K} {dX dY : Nat → K → K → K → K} {last next : View (Dom Dim)}
    (G : Grid nx ny N pos last.span) (hn : Chart2 Dim.x Dim.y next.span 1 (nx + 1) 1 (ny + 1) pos)
    (hb : last.buf ≠ next.buf) {F : Nat → Nat → K} {i j : Nat} (h1 : 1 ≤ i) (h2 : i < nx + 1) (h3 : 1 ≤ j) (h4 : j < ny + 1)
    (hX : ∀ r c l, incX (el Dim.x i) r c l = .ok (dX i r c l)) (hY : ∀ r c l, incY (el Dim.y j) r c l = .ok (dY j r c l))
    {mem : Mem K} (hc : cell mem last.buf (pos i j) = some (F i j))
    (hr : cell mem last.buf (pos (i + 1) j) = some (F (i + 1) j)) (hl : cell mem last.buf (pos (i - 1) j) = some (F (i - 1) j))
    (hu : cell mem last.buf (pos i (j + 1)) = some (F i (j + 1))) (hd : cell mem last.buf (pos i (j - 1)) = some (F i (j - 1)))
    (hs : (cell mem next.buf (pos i j)).isSome) :
    ∃ mem', kernel add incX incY last next (pt Dim.x Dim.y i j) mem = .ok mem' ∧
      ∀ b p, cell mem' b p = if b = next.buf ∧ p = pos i j then
        some (add (add (F i j) (dX i (F (i + 1) j) (F i j) (F (i - 1) j))) (dY j (F i (j + 1)) (F i j) (F i (j - 1)))) else cell mem b p := by
  have hget : ∀ (m : Mem K), (∀ b p, ¬ (b = next.buf ∧ p = pos i j) → cell m b p = cell mem b p) →
      View.get m last [el Dim.x i, el Dim.y j] = .ok (F i j) ∧
      View.get m last [el Dim.x (i + 1), el Dim.y j] = .ok (F (i + 1) j) ∧
      View.get m last [el Dim.x (i - 1), el Dim.y j] = .ok (F (i - 1) j) ∧
      View.get m last [el Dim.x i, el Dim.y (j + 1)] = .ok (F i (j + 1)) ∧
      View.get m last [el Dim.x i, el Dim.y (j - 1)] = .ok (F i (j - 1)) := by
    intro m hm
    have hm' : ∀ p, cell m last.buf p = cell mem last.buf p := fun p => hm _ p (fun h => hb h.1)
    refine ⟨?_, ?_, ?_, ?_, ?_⟩ <;>
      refine get_ok G.chart (by omega) (by omega) (by omega) (by omega) ?_ <;> rw [hm'] <;> assumption
  have hput : ∀ (m : Mem K) (x : K), (cell m next.buf (pos i j)).isSome →
      ∃ m', View.put m next [el Dim.x i, el Dim.y j] x = .ok m' ∧
        ∀ b p, cell m' b p = if b = next.buf ∧ p = pos i j then some x else cell m b p := by
    intro m x h
    obtain ⟨m', g1, g2⟩ := Mem.write_ok h x
    exact ⟨m', by rw [View.put, hn.access xy h1 h2 h3 h4, Res.ok_bind, g1], g2⟩
  obtain ⟨c0, _, _, _, _⟩ := hget mem (fun _ _ _ => rfl)
  obtain ⟨m1, p1, q1⟩ := hput mem (F i j) hs
  obtain ⟨c1, r1, l1, _, _⟩ := hget m1 (fun b p h => by rw [q1, if_neg h])
  have o1 : View.get m1 next [el Dim.x i, el Dim.y j] = .ok (F i j) := by
    rw [View.get, hn.access xy h1 h2 h3 h4, Res.ok_bind, Mem.read_eq, q1, if_pos ⟨rfl, rfl⟩]
  obtain ⟨m2, p2, q2⟩ := hput m1 (add (F i j) (dX i (F (i + 1) j) (F i j) (F (i - 1) j))) (by rw [q1, if_pos ⟨rfl, rfl⟩]; rfl)
  obtain ⟨c2, _, _, u2, d2⟩ := hget m2 (fun b p h => by rw [q2, if_neg h, q1, if_neg h])
  have o2 : View.get m2 next [el Dim.x i, el Dim.y j] = .ok (add (F i j) (dX i (F (i + 1) j) (F i j) (F (i - 1) j))) := by
    rw [View.get, hn.access xy h1 h2 h3 h4, Res.ok_bind, Mem.read_eq, q2, if_pos ⟨rfl, rfl⟩]
  obtain ⟨m3, p3, q3⟩ := hput m2 (add (add (F i j) (dX i (F (i + 1) j) (F i j) (F (i - 1) j))) (dY j (F i (j + 1)) (F i j) (F i (j - 1))))
    (by rw [q2, if_pos ⟨rfl, rfl⟩]; rfl)
  refine ⟨m3, ?_, ?_⟩
  · simp only [kernel, select_x, select_y, Res.ok_bind, c0, p1, addInt_el, r1, c1, subInt_el Dim.x h1, l1, hX, o1, p2, u2, c2,
      subInt_el Dim.y h3, d2, hY, o2, p3]
  · intro b p
    rw [q3]
    split
    · rfl
    · rename_i h
      rw [q2, if_neg h, q1, if_neg h]

/-- The index `i ∈ [0, n + 1]` brought back to `[1, n]`. -/
def wrap (n i : Nat) : Nat := if i = 0 then n else if i = n + 1 then 1 else i

/-- A step on the points `[1, nx] × [1, ny]`. -/
def step (add : K → K → K) (dX dY : Nat → K → K → K → K) (nx ny : Nat) (u : Nat → Nat → K) (i j : Nat) : K :=
  add (add (u i j) (dX i (u (wrap nx (i + 1)) j) (u i j) (u (wrap nx (i - 1)) j)))
    (dY j (u i (wrap ny (j + 1))) (u i j) (u i (wrap ny (j - 1))))

/-- The domains of a dimension with `n` points and a ghost on each side. -/
def axisOf (t : Dim) (n : Nat) : Axis :=
  ⟨seg t 1 (n + 1), seg t 0 (n + 2), seg t 0 1, seg t (n + 1) (n + 2), seg t n (n + 1), seg t 1 2⟩

/-- All orders are permutations of the iteration spaces. -/
structure OrdersOk (nx ny : Nat) (o : Orders) : Prop where
  xPre : (o.xPre 0).Perm (MDSpan.indices [BitVec.ofNat 64 ny])
  xPost : (o.xPost 0).Perm (MDSpan.indices [BitVec.ofNat 64 ny])
  yPre : (o.yPre 0).Perm (MDSpan.indices [BitVec.ofNat 64 nx])
  yPost : (o.yPost 0).Perm (MDSpan.indices [BitVec.ofNat 64 nx])
  kernel : o.kernel.Perm (Support.policy [BitVec.ofNat 64 nx, BitVec.ofNat 64 ny])

/-- The main domain of buffer `b` holds `u`. -/
def Holds (nx ny : Nat) (pos : Nat → Nat → Nat) (mem : Mem K) (b : Nat) (u : Nat → Nat → K) : Prop :=
  ∀ i j, 1 ≤ i → i < nx + 1 → 1 ≤ j → j < ny + 1 → cell mem b (pos i j) = some (u i j)

theorem ofDomains_xy (a b c d : Nat) (h1 : a ≤ b) (h2 : b < 2 ^ 63) (h3 : c ≤ d) (h4 : d < 2 ^ 63) :
    Dom.ofDomains [Dim.x, Dim.y] [seg Dim.x a b, seg Dim.y c d] = .ok (seg2 Dim.x Dim.y a b c d) := by
  obtain ⟨r, r1, r2, r3⟩ := Dom.ofDomains_ok (qs := [Dim.x, Dim.y]) (ds := [seg Dim.x a b, seg Dim.y c d]) (by decide)
    (by simp [seg]) (by
      intro q hq
      exact Dom.ownedOnce_of_perm (ts := [Dim.x, Dim.y]) (es := [seg Dim.x a b, seg Dim.y c d]) (by decide) (List.Perm.refl _) q hq)
  rw [r1]
  congr 1
  refine eq_seg2 xy r2 ?_ ?_
  · rw [r3 Dim.x (by simp) (seg Dim.x a b) (by simp) (by simp [seg]), get_seg]
  · rw [r3 Dim.y (by simp) (seg Dim.y c d) (by simp) (by simp [seg]), get_seg]

theorem timeStep_ok {add : K → K → K} {incX incY : Elem Dim → K → K → K → Res K} {dX dY : Nat → K → K → K → K} {last next : View (Dom Dim)}
    (G : Grid nx ny N pos s) (hls : last.span = s) (hns : next.span = s) (hb : last.buf ≠ next.buf)
    (hX : ∀ i, 1 ≤ i → i < nx + 1 → ∀ r c l, incX (el Dim.x i) r c l = .ok (dX i r c l))
    (hY : ∀ j, 1 ≤ j → j < ny + 1 → ∀ r c l, incY (el Dim.y j) r c l = .ok (dY j r c l))
    {o : Orders} (ho : OrdersOk nx ny o) {mem : Mem K} {u : Nat → Nat → K} (hl : Alloc mem last.buf N)
    (hn : Alloc mem next.buf N) (hu : Holds nx ny pos mem last.buf u) :
    ∃ mem', timeStep add incX incY (axisOf .x nx) (axisOf .y ny) o last next mem = .ok mem' ∧
      Alloc mem' last.buf N ∧ Alloc mem' next.buf N ∧ Holds nx ny pos mem' next.buf (step add dX dY nx ny u) := by
  have hx := G.sx; have hy := G.sy
  have hbx := G.chart.bx; have hby := G.chart.byy
  obtain ⟨m1, a1, a2, a3, a4⟩ := fillX_ok G hls hl (g := 0) (m := nx) (by omega) (by omega) (by omega) ho.xPre
  obtain ⟨m2, b1, b2, b3, b4⟩ := fillX_ok G hls a2 (g := nx + 1) (m := 1) (by omega) (by omega) (by omega) ho.xPost
  obtain ⟨m3, c1, c2, c3, c4⟩ := fillY_ok G hls b2 (g := 0) (m := ny) (by omega) (by omega) (by omega) ho.yPre
  obtain ⟨m4, d1, d2, d3, d4⟩ := fillY_ok G hls c2 (g := ny + 1) (m := 1) (by omega) (by omega) (by omega) ho.yPost
  -- cells that are not in the lines written
  have f1 : ∀ i j, i < nx + 2 → j < ny + 2 → i ≠ 0 → cell m1 last.buf (pos i j) = cell mem last.buf (pos i j) := by
    intro i j hi hj h
    exact a4 _ _ (fun _ k k1 k2 e => h (G.inj i j 0 k hi hj (by omega) (by omega) e).1)
  have f2 : ∀ i j, i < nx + 2 → j < ny + 2 → i ≠ nx + 1 → cell m2 last.buf (pos i j) = cell m1 last.buf (pos i j) := by
    intro i j hi hj h
    exact b4 _ _ (fun _ k k1 k2 e => h (G.inj i j (nx + 1) k hi hj (by omega) (by omega) e).1)
  have f3 : ∀ i j, i < nx + 2 → j < ny + 2 → j ≠ 0 → cell m3 last.buf (pos i j) = cell m2 last.buf (pos i j) := by
    intro i j hi hj h
    exact c4 _ _ (fun _ k k1 k2 e => h (G.inj i j k 0 hi hj (by omega) (by omega) e).2)
  have f4 : ∀ i j, i < nx + 2 → j < ny + 2 → j ≠ ny + 1 → cell m4 last.buf (pos i j) = cell m3 last.buf (pos i j) := by
    intro i j hi hj h
    exact d4 _ _ (fun _ k k1 k2 e => h (G.inj i j k (ny + 1) hi hj (by omega) (by omega) e).2)
  have w0 : ∀ n, wrap n 0 = n := fun n => by rw [wrap, if_pos rfl]
  have w1 : ∀ n, wrap n (n + 1) = 1 := fun n => by rw [wrap, if_neg (by omega), if_pos rfl]
  have w2 : ∀ n i, 1 ≤ i → i < n + 1 → wrap n i = i := fun n i h h' => by rw [wrap, if_neg (by omega), if_neg (by omega)]
  -- after the four copies
  have main2 : ∀ i j, 1 ≤ i → i < nx + 1 → 1 ≤ j → j < ny + 1 → cell m2 last.buf (pos i j) = some (u i j) := by
    intro i j h1 h2 h3 h4
    rw [f2 i j (by omega) (by omega) (by omega), f1 i j (by omega) (by omega) (by omega), hu i j h1 h2 h3 h4]
  have rows : ∀ i j, i < nx + 2 → 1 ≤ j → j < ny + 1 → cell m4 last.buf (pos i j) = some (u (wrap nx i) (wrap ny j)) := by
    intro i j h1 h3 h4
    rw [f4 i j h1 (by omega) (by omega), f3 i j h1 (by omega) (by omega), w2 ny j h3 h4]
    by_cases hi0 : i = 0
    · subst hi0
      rw [f2 0 j (by omega) (by omega) (by omega), a3 j h3 h4, hu nx j (by omega) (by omega) h3 h4, w0]
    · by_cases hi1 : i = nx + 1
      · subst hi1
        rw [b3 j h3 h4, f1 1 j (by omega) (by omega) (by omega), hu 1 j (by omega) (by omega) h3 h4, w1]
      · rw [main2 i j (by omega) (by omega) h3 h4, w2 nx i (by omega) (by omega)]
  have cols : ∀ i j, 1 ≤ i → i < nx + 1 → j < ny + 2 → cell m4 last.buf (pos i j) = some (u (wrap nx i) (wrap ny j)) := by
    intro i j h1 h2 h3
    by_cases hj0 : j = 0
    · subst hj0
      rw [f4 i 0 (by omega) (by omega) (by omega), c3 i h1 h2, main2 i ny h1 h2 (by omega) (by omega), w0, w2 nx i h1 h2]
    · by_cases hj1 : j = ny + 1
      · subst hj1
        rw [d3 i h1 h2, f3 i 1 (by omega) (by omega) (by omega), main2 i 1 h1 h2 (by omega) (by omega), w1, w2 nx i h1 h2]
      · exact rows i j (by omega) (by omega) (by omega)
  have other : ∀ b p, b ≠ last.buf → cell m4 b p = cell mem b p := by
    intro b p h
    rw [d4 b p (fun e => absurd e h), c4 b p (fun e => absurd e h), b4 b p (fun e => absurd e h), a4 b p (fun e => absurd e h)]
  have hN : 0 < N := by
    have := G.chart.lt_cells xy (i := 0) (j := 0) (by omega) (by omega) (by omega) (by omega)
    rw [G.cells] at this; omega
  have hn4 : Alloc m4 next.buf N := hn.congr hN (fun p => by rw [other _ p (Ne.symm hb)])
  obtain ⟨r, r1, r2, r3⟩ := G.chart.restrict xy (a' := 1) (b' := nx + 1) (c' := 1) (d' := ny + 1) (by omega) (by omega) (by omega)
    (by omega) (by omega) (by omega)
  obtain ⟨es, e1, e2⟩ := schedule2 (a := 1) (b := nx + 1) (c := 1) (d := ny + 1) (by omega) (by omega) (by omega) (by omega)
    (sched := o.kernel) (by simpa using ho.kernel)
  have hidx : ∀ i j, i < nx + 2 → j < ny + 2 → idx Dim.x (pt Dim.x Dim.y i j) = i ∧ idx Dim.y (pt Dim.x Dim.y i j) = j := by
    intro i j hi hj
    constructor
    · rw [idx, pt, get_cons, if_pos rfl]; exact toNat_small (by omega)
    · rw [idx, pt, get_cons, if_neg (by decide), get_cons, if_pos rfl]; exact toNat_small (by omega)
  let posE : Elem Dim → Nat := fun e => pos (idx Dim.x e) (idx Dim.y e)
  let valE : Elem Dim → K := fun e => step add dX dY nx ny u (idx Dim.x e) (idx Dim.y e)
  have hE : ∀ i j, i < nx + 2 → j < ny + 2 → posE (pt Dim.x Dim.y i j) = pos i j ∧
      valE (pt Dim.x Dim.y i j) = step add dX dY nx ny u i j := by
    intro i j hi hj
    obtain ⟨h1, h2⟩ := hidx i j hi hj
    simp only [posE, valE, h1, h2, and_self]
  obtain ⟨m5, k1, k2, k3⟩ := fold_cells (f := kernel add incX incY last ⟨next.buf, next.space, .stride, r⟩) (bn := next.buf) posE valE
    m4 es
    (by
      intro e he e' he' h
      obtain ⟨i, j, h1, h2, h3, h4, rfl⟩ := (e1 e).1 he
      obtain ⟨i', j', h1', h2', h3', h4', rfl⟩ := (e1 e').1 he'
      rw [(hE i j (by omega) (by omega)).1, (hE i' j' (by omega) (by omega)).1] at h
      obtain ⟨rfl, rfl⟩ := G.inj i j i' j' (by omega) (by omega) (by omega) (by omega) h
      rfl)
    (by
      intro e he m hm1 hm2
      obtain ⟨i, j, h1, h2, h3, h4, rfl⟩ := (e1 e).1 he
      obtain ⟨m', g1, g2⟩ := kernel_ok (add := add) (incX := incX) (incY := incY) (last := last) (next := ⟨next.buf, next.space, .stride, r⟩)
        (mem := m) (F := fun i j => u (wrap nx i) (wrap ny j)) (by rw [hls]; exact G) r3 hb h1 h2 h3 h4 (hX i h1 h2) (hY j h3 h4)
        (by rw [hm1 _ _ hb]; exact rows i j (by omega) h3 h4)
        (by rw [hm1 _ _ hb]; exact rows (i + 1) j (by omega) h3 h4)
        (by rw [hm1 _ _ hb]; exact rows (i - 1) j (by omega) h3 h4)
        (by rw [hm1 _ _ hb]; exact cols i (j + 1) h1 h2 (by omega))
        (by rw [hm1 _ _ hb]; exact cols i (j - 1) h1 h2 (by omega))
        (by
          rw [hm2, hn4.isSome]
          have := G.chart.lt_cells xy (i := i) (j := j) (by omega) (by omega) (by omega) (by omega)
          rwa [G.cells] at this)
      refine ⟨m', g1, ?_⟩
      intro b p
      rw [g2, (hE i j (by omega) (by omega)).1, (hE i j (by omega) (by omega)).2]
      simp only [step, w2 nx i h1 h2, w2 ny j h3 h4])
    (by
      intro e he
      obtain ⟨i, j, h1, h2, h3, h4, rfl⟩ := (e1 e).1 he
      rw [(hE i j (by omega) (by omega)).1, hn4.isSome]
      have := G.chart.lt_cells xy (i := i) (j := j) (by omega) (by omega) (by omega) (by omega)
      rwa [G.cells] at this)
  refine ⟨m5, ?_, ?_, ?_, ?_⟩
  · have hr : View.restrictTo next (seg2 Dim.x Dim.y 1 (nx + 1) 1 (ny + 1)) = .ok ⟨next.buf, next.space, .stride, r⟩ := by
      rw [View.restrictTo, hns, r1]; rfl
    have hod := ofDomains_xy 1 (nx + 1) 1 (ny + 1) (by omega) (by omega) (by omega) (by omega)
    have b1' : fillX o.xPost (seg Dim.x (nx + 1) (nx + 2)) (seg Dim.x 1 2) (seg Dim.y 1 (ny + 1)) last m1 = .ok m2 := b1
    have d1' : fillY o.yPost (seg Dim.y (ny + 1) (ny + 2)) (seg Dim.y 1 2) (seg Dim.x 1 (nx + 1)) last m3 = .ok m4 := d1
    have a1' : fillX o.xPre (seg Dim.x 0 1) (seg Dim.x nx (nx + 1)) (seg Dim.y 1 (ny + 1)) last mem = .ok m1 := a1
    have c1' : fillY o.yPre (seg Dim.y 0 1) (seg Dim.y ny (ny + 1)) (seg Dim.x 1 (nx + 1)) last m2 = .ok m3 := c1
    simp only [timeStep, axisOf, a1', b1', c1', d1', Res.ok_bind, hod, hr, r3.dom]
    rw [e2, k1]
  · refine d2.congr hN (fun p => ?_)
    rw [k3 _ p (fun e => absurd e hb)]
  · refine hn4.congr hN (fun p => ?_)
    by_cases h : ∃ e ∈ es, p = posE e
    · obtain ⟨e, he, rfl⟩ := h
      rw [k2 e he, hn4.isSome]
      obtain ⟨i, j, h1, h2, h3, h4, rfl⟩ := (e1 e).1 he
      have := G.chart.lt_cells xy (i := i) (j := j) (by omega) (by omega) (by omega) (by omega)
      rw [G.cells] at this
      rw [(hE i j (by omega) (by omega)).1]
      simp [this]
    · rw [k3 _ p (fun _ e he e' => h ⟨e, he, e'⟩)]
  · intro i j h1 h2 h3 h4
    have := k2 (pt Dim.x Dim.y i j) ((e1 _).2 ⟨i, j, h1, h2, h3, h4, rfl⟩)
    rwa [(hE i j (by omega) (by omega)).1, (hE i j (by omega) (by omega)).2] at this

theorem timeLoop_ok {add : K → K → K} {incX incY : Elem Dim → K → K → K → Res K} {dX dY : Nat → K → K → K → K}
    (G : Grid nx ny N pos s)
    (hX : ∀ i, 1 ≤ i → i < nx + 1 → ∀ r c l, incX (el Dim.x i) r c l = .ok (dX i r c l))
    (hY : ∀ j, 1 ≤ j → j < ny + 1 → ∀ r c l, incY (el Dim.y j) r c l = .ok (dY j r c l))
    {orders : Nat → Orders} (ho : ∀ k, OrdersOk nx ny (orders k)) (n k : Nat) {last next : View (Dom Dim)}
    (hls : last.span = s) (hns : next.span = s) (hb : last.buf ≠ next.buf) {mem : Mem K} {u : Nat → Nat → K}
    (hl : Alloc mem last.buf N) (hn : Alloc mem next.buf N) (hu : Holds nx ny pos mem last.buf u) :
    ∃ mem' v, timeLoop add incX incY (axisOf .x nx) (axisOf .y ny) orders n k last next mem = .ok (mem', v) ∧ v.span = s ∧
      Holds nx ny pos mem' v.buf ((step add dX dY nx ny)^[n] u) := by
  induction n generalizing k last next mem u with
  | zero => exact ⟨mem, last, rfl, hls, hu⟩
  | succ n ih =>
    obtain ⟨m1, g1, g2, g3, g4⟩ := timeStep_ok G hls hns hb hX hY (ho k) hl hn hu
    obtain ⟨m2, v, k1, k2, k3⟩ := ih (k + 1) hns hls hb.symm g3 g2 g4
    refine ⟨m2, v, ?_, k2, k3⟩
    rw [timeLoop, g1, Res.ok_bind, k1]

end scheme

end DDC.Heat
