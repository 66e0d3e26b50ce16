import Verif.Model.GameOfLife
import Verif.Lemmas.Heat

/-!
# The game of life
-/

namespace DDC.Grid2

open Tup Spec Props
open One (seg el vec)

variable {τ : Type} [DecidableEq τ] {α : Type}

theorem ofDomain_dims {s : Span (Dom τ)} {d : Dom τ} (h : Span.ofDomain Dom.spanOps d = .ok s) :
    LayoutTag.right.dims s.md.dims = s.md.dims := by
  rw [Span.ofDomain] at h
  obtain ⟨n, _, h⟩ := Res.bind_eq_ok.1 h
  obtain ⟨m, _, h⟩ := Res.bind_eq_ok.1 h
  have := Res.ok.inj h
  rw [← this]
  simp only [LayoutTag.dims, MDSpan.map_fst_layoutRight]

variable {tx ty : τ} {a b c d N : Nat} {pos pos' : Nat → Nat → Nat}

theorem extents_dims2 (hxy : tx ≠ ty) {s : Span (Dom τ)} (h : Chart2 tx ty s a b c d pos) :
    s.md.dims.map Prod.fst = [BitVec.ofNat 64 (b - a), BitVec.ofNat 64 (d - c)] := by
  obtain ⟨x, x1, x2⟩ := h.wf.exts
  have : Dom.extents s.dom = .ok x := x1
  obtain ⟨y, y1, y2, y3⟩ := Dom.extents_ok s.dom
  rw [y1] at this
  obtain rfl := Res.ok.inj this
  rw [h.dom] at y2 y3
  have e1 := y3 tx _ _ get_seg2_x
  have e2 := y3 ty _ _ (get_seg2_y hxy)
  rw [One.ofNat_sub h.bx.1] at e1
  rw [One.ofNat_sub h.byy.1] at e2
  have : y = [(tx, BitVec.ofNat 64 (b - a)), (ty, BitVec.ofNat 64 (d - c))] := by
    refine ext_get (by rw [y2]; rfl) (by rw [y2]; simp [seg2, hxy]) ?_
    intro q hq
    rw [y2, tags_seg2] at hq
    simp only [List.mem_cons, List.not_mem_nil, or_false] at hq
    rcases hq with rfl | rfl
    · rw [e1, get_cons, if_pos rfl]
    · rw [e2, get_cons, if_neg hxy.symm, get_cons, if_pos rfl]
  rw [x2, this]; rfl

/-- Copy between two chunks on the same product of intervals. -/
theorem copy2 (hxy : tx ≠ ty) {mem : Mem α} {dst src : View (Dom τ)} (hb : dst.buf ≠ src.buf)
    (hl : dst.layout.dims dst.span.md.dims = dst.span.md.dims) (hl' : src.layout.dims src.span.md.dims = src.span.md.dims)
    (ha : Alloc mem dst.buf N) (ha' : Alloc mem src.buf N) (hN : dst.span.md.cells = N) (hN' : src.span.md.cells = N)
    (hd : Chart2 tx ty dst.span a b c d pos) (hs : Chart2 tx ty src.span a b c d pos') (hab : a < b) (hcd : c < d)
    (hc : (b - a) * (d - c) < 2 ^ 64)
    (hinj : ∀ i j i' j', a ≤ i → i < b → c ≤ j → j < d → a ≤ i' → i' < b → c ≤ j' → j' < d → pos i j = pos i' j' →
        i = i' ∧ j = j')
    {sched : List (List U64)} (hp : sched.Perm (MDSpan.indices [BitVec.ofNat 64 (b - a), BitVec.ofNat 64 (d - c)])) :
    ∃ mem', parallelDeepcopy Dom.spanOps Dom.eq sched mem dst src = .ok (mem', dst) ∧ Alloc mem' dst.buf N ∧
      (∀ i j, a ≤ i → i < b → c ≤ j → j < d → cell mem' dst.buf (pos i j) = cell mem src.buf (pos' i j)) ∧
      (∀ b' p, b' ≠ dst.buf → cell mem' b' p = cell mem b' p) := by
  have hdd := hd.dom
  have hsd := hs.dom
  have hall : ∀ v : View (Dom τ), v.span.dom = seg2 tx ty a b c d → ∀ e, tags e = tags v.span.dom → InBox v.span.dom e →
      ∃ i j, a ≤ i ∧ i < b ∧ c ≤ j ∧ j < d ∧ e = pt tx ty i j := by
    intro v hv e he hb
    rw [hv] at he hb
    exact (inBox2 hxy hd.bx.1 hd.bx.2 hd.byy.1 hd.byy.2 he).1 hb
  have hcard : card (seg2 tx ty a b c d) < 2 ^ 64 := by
    rw [card_seg2 hxy (by have := hd.bx; omega) hd.bx.2 (by have := hd.byy; omega) hd.byy.2]; exact hc
  obtain ⟨mem', m1, m2⟩ := C18_contiguous.deepcopy mem dst src sched
    ⟨hd.valid hxy, hd.wf, hl, by obtain ⟨l, h1, h2⟩ := ha; exact ⟨l, h1, by rw [h2, hN]⟩⟩
    ⟨hs.valid hxy, hs.wf, hl', by obtain ⟨l, h1, h2⟩ := ha'; exact ⟨l, h1, by rw [h2, hN']⟩⟩
    (by
      intro e f p he hf h1 h2
      obtain ⟨i, j, i1, i2, i3, i4, rfl⟩ := hall dst hdd e he (access_inv (hd.valid hxy) he h1)
      obtain ⟨k, l, j1, j2, j3, j4, rfl⟩ := hall dst hdd f hf (access_inv (hd.valid hxy) hf h2)
      rw [hd.cell i j i1 i2 i3 i4] at h1
      rw [hd.cell k l j1 j2 j3 j4] at h2
      obtain ⟨rfl, rfl⟩ := hinj i j k l i1 i2 i3 i4 j1 j2 j3 j4 ((Res.ok.inj h1).trans (Res.ok.inj h2).symm)
      rfl)
    (fun h => absurd h hb)
    (by rw [hdd]; exact hcard) (by rw [hsd]; exact hcard)
    (by
      rw [hdd, hsd]
      have hv := seg2_valid hxy (a := a) (b := b) (c := c) (d := d) hd.bx.1 hd.bx.2 hd.byy.1 hd.byy.2
      exact (C08_eq_equiv _ _ _ hv hv hv (List.Perm.refl _) (List.Perm.refl _) hcard hcard hcard).1)
    (by rw [hdd, hsd]) (by rw [extents_dims2 hxy hd]; exact hp)
  have hval : ∀ i j, a ≤ i → i < b → c ≤ j → j < d → cell mem' dst.buf (pos i j) = cell mem src.buf (pos' i j) := by
    intro i j i1 i2 j1 j2
    have htj : tags (pt tx ty i j) = tags dst.span.dom := by rw [hdd]; rfl
    obtain ⟨x, x1, x2⟩ := m2.value (pt tx ty i j) (pt tx ty i j) htj
      ((mem_cart_axes (hd.valid hxy) _).1 ((cart_inBox (hd.valid hxy) htj).2 (by
        rw [hdd]; exact (inBox2 hxy hd.bx.1 hd.bx.2 hd.byy.1 hd.byy.2 rfl).2 ⟨i, j, i1, i2, j1, j2, rfl⟩))).2
      ⟨by rw [hsd]; rfl, fun _ _ => rfl⟩
    rw [valueAt, hs.cell i j i1 i2 j1 j2, Res.ok_bind, Mem.read_eq] at x1
    rw [valueAt, hd.cell i j i1 i2 j1 j2, Res.ok_bind, Mem.read_eq] at x2
    rw [x2, x1]
  have hfr : ∀ b' p, ¬ (b' = dst.buf ∧ ∃ i j, a ≤ i ∧ i < b ∧ c ≤ j ∧ j < d ∧ p = pos i j) → cell mem' b' p = cell mem b' p := by
    intro b' p h
    refine m2.frame b' p ?_
    rintro ⟨hb', e, he, hac⟩
    obtain ⟨i, j, i1, i2, j1, j2, rfl⟩ := hall dst hdd e he (access_inv (hd.valid hxy) he hac)
    rw [hd.cell i j i1 i2 j1 j2] at hac
    exact h ⟨hb', i, j, i1, i2, j1, j2, (Res.ok.inj hac).symm⟩
  refine ⟨mem', m1, ?_, hval, fun b' p h => hfr b' p (fun h' => h h'.1)⟩
  have hlt := hd.lt_cells hxy (Nat.le_refl a) hab (Nat.le_refl c) hcd
  refine ha.congr (by omega) (fun p => ?_)
  by_cases h : ∃ i j, a ≤ i ∧ i < b ∧ c ≤ j ∧ j < d ∧ p = pos i j
  · obtain ⟨i, j, i1, i2, j1, j2, rfl⟩ := h
    rw [hval i j i1 i2 j1 j2, ha.isSome, ha'.isSome]
    have h1 := hd.lt_cells hxy i1 i2 j1 j2
    have h2 := hs.lt_cells hxy i1 i2 j1 j2
    omega
  · rw [hfr _ p (fun h' => h h'.2)]

end DDC.Grid2

namespace DDC.Life

open Tup Spec Props Grid2
open One (seg el vec)
open Heat (Dim xy)

set_option linter.unusedSectionVars false

theorem loop3 {σ : Type} (body : Int → σ → Res σ) (s : σ) :
    Support.loop 2 body (-1) s = (body (-1) s >>= fun s => body 0 s >>= fun s => body 1 s) := by
  have h := Support.loop_eq 2 body 3 (-1) (by simp) s
  rw [h]
  simp only [show List.range 3 = [0, 1, 2] from rfl, List.foldlM_cons, List.foldlM_nil]
  simp only [Nat.cast_zero, Nat.cast_one, Int.add_zero, show (-1 : Int) + 1 = 0 from rfl, show (-1 : Int) + (2 : Nat) = 1 from rfl]
  cases h1 : body (-1) s with
  | ok t =>
    simp only [Res.ok_bind]
    cases h2 : body 0 t with
    | ok t =>
      simp only [Res.ok_bind]
      cases h3 : body 1 t <;> rfl
    | _ => rfl
  | _ => rfl

/-- A chunk on the whole domain. -/
structure Board (L H N : Nat) (pos : Nat → Nat → Nat) (s : Span (Dom Dim)) : Prop where
  chart : Chart2 Dim.x Dim.y s 0 L 0 H pos
  inj : ∀ i j i' j', i < L → j < H → i' < L → j' < H → pos i j = pos i' j' → i = i' ∧ j = j'
  cells : s.md.cells = N
  size : N = L * H
  dims : LayoutTag.right.dims s.md.dims = s.md.dims

variable {L H N : Nat} {pos : Nat → Nat → Nat} {s : Span (Dom Dim)}

/-- Buffer `b` holds `u`. -/
def Holds (L H : Nat) (pos : Nat → Nat → Nat) (mem : Mem Bool) (b : Nat) (u : Nat → Nat → Bool) : Prop :=
  ∀ i j, i < L → j < H → cell mem b (pos i j) = some (u i j)

theorem get2 (B : Board L H N pos s) {mem : Mem Bool} {v : View (Dom Dim)} (hv : v.span = s) {u : Nat → Nat → Bool}
    (hu : Holds L H pos mem v.buf u) {i j : Nat} (hi : i < L) (hj : j < H) :
    View.get mem v [el Dim.x i, el Dim.y j] = .ok (u i j) := by
  rw [View.get, hv, B.chart.access xy (Nat.zero_le _) hi (Nat.zero_le _) hj, Res.ok_bind, Mem.read_eq, hu i j hi hj]

theorem get1 (B : Board L H N pos s) {mem : Mem Bool} {v : View (Dom Dim)} (hv : v.span = s) {u : Nat → Nat → Bool}
    (hu : Holds L H pos mem v.buf u) {i j : Nat} (hi : i < L) (hj : j < H) :
    View.get mem v [pt Dim.x Dim.y i j] = .ok (u i j) := by
  rw [View.get, hv, B.chart.cell i j (Nat.zero_le _) hi (Nat.zero_le _) hj, Res.ok_bind, Mem.read_eq, hu i j hi hj]

theorem put1 (B : Board L H N pos s) {mem : Mem Bool} {v : View (Dom Dim)} (hv : v.span = s) {i j : Nat} (hi : i < L)
    (hj : j < H) (h : (cell mem v.buf (pos i j)).isSome) (x : Bool) :
    ∃ m', View.put mem v [pt Dim.x Dim.y i j] x = .ok m' ∧
      ∀ b p, cell m' b p = if b = v.buf ∧ p = pos i j then some x else cell mem b p := by
  obtain ⟨m', g1, g2⟩ := Mem.write_ok h x
  exact ⟨m', by rw [View.put, hv, B.chart.cell i j (Nat.zero_le _) hi (Nat.zero_le _) hj, Res.ok_bind, g1], g2⟩

theorem add_el (t : Dim) {i : Nat} (h : 1 ≤ i) :
    Elem.addInt (el t i) (BitVec.ofInt 64 (-1)) = .ok (el t (i - 1)) ∧ Elem.addInt (el t i) (BitVec.ofInt 64 0) = .ok (el t i) ∧
      Elem.addInt (el t i) (BitVec.ofInt 64 1) = .ok (el t (i + 1)) := by
  refine ⟨?_, ?_, ?_⟩
  · have : (1 : U64) = BitVec.ofNat 64 1 := rfl
    rw [el, Elem.addInt, el, ← One.ofNat_sub h, ← this, BitVec.sub_eq_add_neg]
    rfl
  · rw [el, Elem.addInt]; simp [el]
  · rw [el, Elem.addInt, el, BitVec.ofNat_add]; rfl

/-- The number of live cells among a cell and the eight around it. -/
def around (u : Nat → Nat → Bool) (i j : Nat) : Int :=
  (u (i - 1) (j - 1)).toInt + (u (i - 1) j).toInt + (u (i - 1) (j + 1)).toInt + (u i (j - 1)).toInt + (u i j).toInt
    + (u i (j + 1)).toInt + (u (i + 1) (j - 1)).toInt + (u (i + 1) j).toInt + (u (i + 1) (j + 1)).toInt

theorem ite_ok (b : Bool) (s : Int) : (if b = true then Res.ok (s + 1) else .ok s) = .ok (s + b.toInt) := by
  cases b <;> simp

theorem count_ok (B : Board L H N pos s) {mem : Mem Bool} {v : View (Dom Dim)} (hv : v.span = s) {u : Nat → Nat → Bool}
    (hu : Holds L H pos mem v.buf u) {i j : Nat} (h1 : 1 ≤ i) (h2 : i + 1 < L) (h3 : 1 ≤ j) (h4 : j + 1 < H) :
    count v mem (el Dim.x i) (el Dim.y j) = .ok (around u i j) := by
  obtain ⟨a1, a2, a3⟩ := add_el Dim.x h1
  obtain ⟨b1, b2, b3⟩ := add_el Dim.y h3
  have g := fun {i j} hi hj => get2 B hv hu (i := i) (j := j) hi hj
  simp only [count, loop3, a1, a2, a3, b1, b2, b3, Res.ok_bind, g (show i - 1 < L by omega) (show j - 1 < H by omega),
    g (show i - 1 < L by omega) (show j < H by omega), g (show i - 1 < L by omega) h4, g (show i < L by omega) (show j - 1 < H by omega),
    g (show i < L by omega) (show j < H by omega), g (show i < L by omega) h4, g h2 (show j - 1 < H by omega),
    g h2 (show j < H by omega), g h2 h4, ite_ok, Int.zero_add, around]

/-- The next state of a cell that is not on the border. -/
def rule (u : Nat → Nat → Bool) (i j : Nat) : Bool :=
  if u i j then decide (2 ≤ around u i j - 1 ∧ around u i j - 1 ≤ 3) else decide (around u i j = 3)

theorem kernel_ok (B : Board L H N pos s) {mem : Mem Bool} {v w : View (Dom Dim)} (hv : v.span = s) (hw : w.span = s)
    {u : Nat → Nat → Bool} (hu : Holds L H pos mem v.buf u) {i j : Nat} (h1 : 1 ≤ i) (h2 : i + 1 < L) (h3 : 1 ≤ j) (h4 : j + 1 < H)
    (hc : cell mem w.buf (pos i j) = some (u i j) ∨ cell mem w.buf (pos i j) = some (rule u i j)) :
    ∃ m', kernel v w (pt Dim.x Dim.y i j) mem = .ok m' ∧
      ∀ b p, cell m' b p = if b = w.buf ∧ p = pos i j then some (rule u i j) else cell mem b p := by
  have hs : (cell mem w.buf (pos i j)).isSome := by rcases hc with h | h <;> rw [h] <;> rfl
  have hput := put1 B hw (mem := mem) (show i < L by omega) (show j < H by omega) hs
  have hstay : rule u i j = u i j → ∀ b p, cell mem b p = if b = w.buf ∧ p = pos i j then some (rule u i j) else cell mem b p := by
    intro e b p
    split
    · rename_i h
      rw [h.1, h.2]
      rcases hc with h | h
      · rw [h, e]
      · exact h
    · rfl
  have hk : kernel v w (pt Dim.x Dim.y i j) mem =
      if u i j = true then (if around u i j - 1 < 2 ∨ 3 < around u i j - 1 then View.put mem w [pt Dim.x Dim.y i j] false else .ok mem)
      else (if around u i j = 3 then View.put mem w [pt Dim.x Dim.y i j] true else .ok mem) := by
    simp only [kernel, Heat.select_x, Heat.select_y, Res.ok_bind, count_ok B hv hu h1 h2 h3 h4,
      get1 B hv hu (show i < L by omega) (show j < H by omega)]
  rw [hk]
  by_cases c : u i j = true
  · rw [if_pos c]
    by_cases n : around u i j - 1 < 2 ∨ 3 < around u i j - 1
    · rw [if_pos n]
      have e : rule u i j = false := by
        rw [rule, if_pos c]
        exact decide_eq_false (by omega)
      rw [e]
      exact hput false
    · rw [if_neg n]
      refine ⟨mem, rfl, hstay ?_⟩
      rw [rule, if_pos c, c]
      exact decide_eq_true (by omega)
  · rw [if_neg c]
    have c' : u i j = false := by simpa using c
    by_cases n : around u i j = 3
    · rw [if_pos n]
      have e : rule u i j = true := by
        rw [rule, if_neg c]
        exact decide_eq_true n
      rw [e]
      exact hput true
    · rw [if_neg n]
      refine ⟨mem, rfl, hstay ?_⟩
      rw [rule, if_neg c, c']
      exact decide_eq_false n

/-- A loop whose iterations set a cell each, unless it already holds what is to be set. -/
theorem fold_change {α β : Type} {f : β → Mem α → Res (Mem α)} {bn : Nat} (posE : β → Nat) (old val : β → α) (mem : Mem α)
    (es : List β) (hinj : ∀ e ∈ es, ∀ e' ∈ es, posE e = posE e' → e = e')
    (hf : ∀ e ∈ es, ∀ m : Mem α, (∀ b p, b ≠ bn → cell m b p = cell mem b p) →
      (cell m bn (posE e) = some (old e) ∨ cell m bn (posE e) = some (val e)) →
      ∃ m', f e m = .ok m' ∧ ∀ b p, cell m' b p = if b = bn ∧ p = posE e then some (val e) else cell m b p)
    (hs : ∀ e ∈ es, cell mem bn (posE e) = some (old e)) :
    ∃ m', es.foldlM (fun m e => f e m) mem = .ok m' ∧ (∀ e ∈ es, cell m' bn (posE e) = some (val e)) ∧
      (∀ b p, (b = bn → ∀ e ∈ es, p ≠ posE e) → cell m' b p = cell mem b p) := by
  suffices h : ∀ (l : List β) (m : Mem α), (∀ e ∈ l, e ∈ es) → (∀ b p, b ≠ bn → cell m b p = cell mem b p) →
      (∀ e ∈ es, cell m bn (posE e) = some (old e) ∨ cell m bn (posE e) = some (val e)) →
      ∃ m', l.foldlM (fun m e => f e m) m = .ok m' ∧ (∀ e ∈ l, cell m' bn (posE e) = some (val e)) ∧
        (∀ b p, (b = bn → ∀ e ∈ l, p ≠ posE e) → cell m' b p = cell m b p) from
    h es mem (fun _ h => h) (fun _ _ _ => rfl) (fun e he => .inl (hs e he))
  intro l
  induction l with
  | nil => intro m _ _ _; exact ⟨m, rfl, by simp, by simp⟩
  | cons e l ih =>
    intro m hl h1 h2
    obtain ⟨m1, g1, g2⟩ := hf e (hl e (by simp)) m h1 (h2 e (hl e (by simp)))
    obtain ⟨m2, k1, k2, k3⟩ := ih m1 (fun x hx => hl x (by simp [hx]))
      (by
        intro b p hb
        rw [g2, if_neg (by tauto), h1 b p hb])
      (by
        intro x hx
        rw [g2]
        split
        · rename_i h
          rw [hinj x hx e (hl e (by simp)) h.2]
          exact .inr rfl
        · exact h2 x hx)
    refine ⟨m2, by rw [List.foldlM_cons, g1, Res.ok_bind, k1], ?_, ?_⟩
    · intro x hx
      by_cases hxl : x ∈ l
      · exact k2 x hxl
      · have hxe : x = e := by simpa [hxl] using hx
        subst hxe
        rw [k3, g2, if_pos ⟨rfl, rfl⟩]
        intro _ y hy h
        have := hinj x (hl x (by simp)) y (hl y (by simp [hy])) h
        subst this
        exact hxl hy
    · intro b p h
      rw [k3 b p (fun hb x hx => h hb x (by simp [hx])), g2, if_neg]
      rintro ⟨hb, hp⟩
      exact h hb e (by simp) hp

theorem idx_pt {i j : Nat} (hi : i < 2 ^ 63) (hj : j < 2 ^ 63) :
    idx Dim.x (pt Dim.x Dim.y i j) = i ∧ idx Dim.y (pt Dim.x Dim.y i j) = j := by
  constructor
  · rw [idx, pt, get_cons, if_pos rfl]; exact toNat_small hi
  · rw [idx, pt, get_cons, if_neg (by decide), get_cons, if_pos rfl]; exact toNat_small hj

/-- The next generation: the rule inside, the border stays. -/
def next (L H : Nat) (u : Nat → Nat → Bool) (i j : Nat) : Bool :=
  if 1 ≤ i ∧ i + 1 < L ∧ 1 ≤ j ∧ j + 1 < H then rule u i j else u i j

theorem update_ok (B : Board L H N pos s) (hL : 2 ≤ L) (hH : 2 ≤ H) {mem : Mem Bool} {v w : View (Dom Dim)} (hv : v.span = s)
    (hw : w.span = s) (hb : v.buf ≠ w.buf) {u : Nat → Nat → Bool} (hu : Holds L H pos mem v.buf u)
    (hu' : Holds L H pos mem w.buf u) (ha : Alloc mem w.buf N) {order : List (List I64)}
    (ho : order.Perm (Support.policy [BitVec.ofNat 64 (L - 2), BitVec.ofNat 64 (H - 2)])) :
    ∃ m', Support.runSchedule (Dom.support (seg2 Dim.x Dim.y 1 (L - 1) 1 (H - 1))) (kernel v w) order mem = .ok m' ∧
      Holds L H pos m' w.buf (next L H u) ∧ Alloc m' w.buf N ∧ ∀ b p, b ≠ w.buf → cell m' b p = cell mem b p := by
  have hbx := B.chart.bx; have hby := B.chart.byy
  obtain ⟨es, e1, e2⟩ := Heat.schedule2 (a := 1) (b := L - 1) (c := 1) (d := H - 1) (by omega) (by omega) (by omega) (by omega)
    (sched := order) (by rw [show L - 1 - 1 = L - 2 by omega, show H - 1 - 1 = H - 2 by omega]; exact ho)
  let posE : Elem Dim → Nat := fun e => pos (idx Dim.x e) (idx Dim.y e)
  let oldE : Elem Dim → Bool := fun e => u (idx Dim.x e) (idx Dim.y e)
  let valE : Elem Dim → Bool := fun e => rule u (idx Dim.x e) (idx Dim.y e)
  have hE : ∀ i j, i < L → j < H → posE (pt Dim.x Dim.y i j) = pos i j ∧ oldE (pt Dim.x Dim.y i j) = u i j ∧
      valE (pt Dim.x Dim.y i j) = rule u i j := by
    intro i j hi hj
    obtain ⟨h1, h2⟩ := idx_pt (i := i) (j := j) (by omega) (by omega)
    simp only [posE, valE, oldE, h1, h2, and_self]
  obtain ⟨m', k1, k2, k3⟩ := fold_change (f := kernel v w) (bn := w.buf) posE oldE valE mem es
    (by
      intro e he e' he' h
      obtain ⟨i, j, h1, h2, h3, h4, rfl⟩ := (e1 e).1 he
      obtain ⟨i', j', h1', h2', h3', h4', rfl⟩ := (e1 e').1 he'
      rw [(hE i j (by omega) (by omega)).1, (hE i' j' (by omega) (by omega)).1] at h
      obtain ⟨rfl, rfl⟩ := B.inj i j i' j' (by omega) (by omega) (by omega) (by omega) h
      rfl)
    (by
      intro e he m hm1 hm2
      obtain ⟨i, j, h1, h2, h3, h4, rfl⟩ := (e1 e).1 he
      obtain ⟨q1, q2, q3⟩ := hE i j (by omega) (by omega)
      rw [q1, q2, q3] at hm2
      rw [q1, q3]
      exact kernel_ok B hv hw (fun i j hi hj => by rw [hm1 _ _ hb]; exact hu i j hi hj) h1 (by omega) h3 (by omega) hm2)
    (by
      intro e he
      obtain ⟨i, j, h1, h2, h3, h4, rfl⟩ := (e1 e).1 he
      obtain ⟨q1, q2, q3⟩ := hE i j (by omega) (by omega)
      rw [q1, q2]
      exact hu' i j (by omega) (by omega))
  have hold : Holds L H pos m' w.buf (next L H u) := by
    intro i j hi hj
    rw [next]
    split
    · rename_i h
      have := k2 (pt Dim.x Dim.y i j) ((e1 _).2 ⟨i, j, by omega, by omega, by omega, by omega, rfl⟩)
      obtain ⟨q1, q2, q3⟩ := hE i j (by omega) (by omega)
      rwa [q1, q3] at this
    · rename_i h
      rw [k3, hu' i j hi hj]
      intro _ e he h'
      obtain ⟨i', j', h1, h2, h3, h4, rfl⟩ := (e1 e).1 he
      rw [(hE i' j' (by omega) (by omega)).1] at h'
      obtain ⟨rfl, rfl⟩ := B.inj i j i' j' hi hj (by omega) (by omega) h'
      exact h (by omega)
  have hpos : ∀ p, (∃ i j, i < L ∧ j < H ∧ p = pos i j) ∨ cell m' w.buf p = cell mem w.buf p := by
    intro p
    by_cases h : ∃ e ∈ es, p = posE e
    · obtain ⟨e, he, rfl⟩ := h
      obtain ⟨i, j, h1, h2, h3, h4, rfl⟩ := (e1 e).1 he
      exact .inl ⟨i, j, by omega, by omega, (hE i j (by omega) (by omega)).1⟩
    · exact .inr (k3 _ p (fun _ e he e' => h ⟨e, he, e'⟩))
  refine ⟨m', by rw [e2, k1], hold, ?_, fun b p h => k3 b p (fun e => absurd e h)⟩
  refine ha.congr (by rw [B.size]; positivity) (fun p => ?_)
  rcases hpos p with ⟨i, j, hi, hj, rfl⟩ | h
  · rw [hold i j hi hj, hu' i j hi hj]; simp
  · rw [h]

/-- All orders are permutations of the iteration spaces. -/
structure OrdersOk (L H : Nat) (o : Orders) : Prop where
  toHost : o.toHost.Perm (MDSpan.indices [BitVec.ofNat 64 L, BitVec.ofNat 64 H])
  kernel : o.kernel.Perm (Support.policy [BitVec.ofNat 64 (L - 2), BitVec.ofNat 64 (H - 2)])
  back : o.back.Perm (MDSpan.indices [BitVec.ofNat 64 L, BitVec.ofNat 64 H])

/-- A chunk of the program. -/
structure OnBoard (v : View (Dom Dim)) (s : Span (Dom Dim)) : Prop where
  span : v.span = s
  layout : v.layout = .right

theorem board_copy (B : Board L H N pos s) (hL : 2 ≤ L) (hH : 2 ≤ H) (hLH : L * H < 2 ^ 64) {mem : Mem Bool}
    {v w : View (Dom Dim)} (hv : OnBoard v s) (hw : OnBoard w s) (hb : v.buf ≠ w.buf) {u : Nat → Nat → Bool}
    (hu : Holds L H pos mem w.buf u) (ha : Alloc mem v.buf N) (ha' : Alloc mem w.buf N) {order : List (List U64)}
    (ho : order.Perm (MDSpan.indices [BitVec.ofNat 64 L, BitVec.ofNat 64 H])) :
    ∃ m', parallelDeepcopy Dom.spanOps Dom.eq order mem v w = .ok (m', v) ∧
      Holds L H pos m' v.buf u ∧ Alloc m' v.buf N ∧ ∀ b p, b ≠ v.buf → cell m' b p = cell mem b p := by
  obtain ⟨m', k1, k2, k3, k4⟩ := copy2 (N := N) (pos := pos) (pos' := pos) (a := 0) (b := L) (c := 0) (d := H) xy hb
    (by rw [hv.layout, hv.span]; exact B.dims) (by rw [hw.layout, hw.span]; exact B.dims) ha ha' (by rw [hv.span, B.cells])
    (by rw [hw.span, B.cells]) (by rw [hv.span]; exact B.chart) (by rw [hw.span]; exact B.chart) (by omega) (by omega)
    (by simpa using hLH) (fun i j i' j' _ a _ b _ c _ d e => B.inj i j i' j' a b c d e) (by simpa using ho)
  refine ⟨m', k1, ?_, k2, k4⟩
  intro i j hi hj
  rw [k3 i j (by omega) hi (by omega) hj]
  exact hu i j hi hj

theorem loop_ok (B : Board L H N pos s) (hL : 2 ≤ L) (hH : 2 ≤ H) (hLH : L * H < 2 ^ 64) {v w h : View (Dom Dim)}
    (hv : OnBoard v s) (hw : OnBoard w s) (hh : OnBoard h s) (h1 : v.buf ≠ w.buf) (h2 : v.buf ≠ h.buf) (h3 : w.buf ≠ h.buf)
    {orders : Nat → Orders} (ho : ∀ k, OrdersOk L H (orders k)) (n k : Nat) {mem : Mem Bool} {u : Nat → Nat → Bool}
    (a1 : Alloc mem v.buf N) (a2 : Alloc mem w.buf N) (a3 : Alloc mem h.buf N) (u1 : Holds L H pos mem v.buf u)
    (u2 : Holds L H pos mem w.buf u) :
    ∃ m' l, loop (seg2 Dim.x Dim.y 1 (L - 1) 1 (H - 1)) v w h orders n k mem = .ok (m', l) ∧ Alloc m' v.buf N ∧
      Alloc m' h.buf N ∧ Holds L H pos m' v.buf ((next L H)^[n] u) ∧ l.length = n ∧
      ∀ i, (hi : i < l.length) → Holds L H pos l[i] h.buf ((next L H)^[i] u) := by
  have hN : 0 < N := by rw [B.size]; positivity
  induction n generalizing k mem u with
  | zero => exact ⟨mem, [], rfl, a1, a3, u1, rfl, by simp⟩
  | succ n ih =>
    obtain ⟨m1, b1, b2, b3, b4⟩ := board_copy B hL hH hLH hh hv h2.symm u1 a3 a1 (ho k).toHost
    have c1 : Alloc m1 v.buf N := a1.congr hN (fun p => by rw [b4 _ _ h2])
    have c2 : Alloc m1 w.buf N := a2.congr hN (fun p => by rw [b4 _ _ h3])
    have c3 : Holds L H pos m1 v.buf u := fun i j hi hj => by rw [b4 _ _ h2]; exact u1 i j hi hj
    have c4 : Holds L H pos m1 w.buf u := fun i j hi hj => by rw [b4 _ _ h3]; exact u2 i j hi hj
    obtain ⟨m2, d1, d2, d3, d4⟩ := update_ok B hL hH hv.span hw.span h1 c3 c4 c2 (ho k).kernel
    have e1 : Alloc m2 v.buf N := c1.congr hN (fun p => by rw [d4 _ _ h1])
    have e2 : Alloc m2 h.buf N := b3.congr hN (fun p => by rw [d4 _ _ h3.symm])
    obtain ⟨m3, f1, f2, f3, f4⟩ := board_copy B hL hH hLH hv hw h1 d2 e1 d3 (ho k).back
    have g1 : Alloc m3 w.buf N := d3.congr hN (fun p => by rw [f4 _ _ h1.symm])
    have g2 : Alloc m3 h.buf N := e2.congr hN (fun p => by rw [f4 _ _ h2.symm])
    have g3 : Holds L H pos m3 w.buf (next L H u) := fun i j hi hj => by rw [f4 _ _ h1.symm]; exact d2 i j hi hj
    obtain ⟨m4, l, k1, k2, k3, k4, k5, k6⟩ := ih (k + 1) f3 g1 g2 f2 g3
    refine ⟨m4, m1 :: l, ?_, k2, k3, k4, by simp [k5], ?_⟩
    · rw [loop, b1, Res.ok_bind]
      simp only [d1, Res.ok_bind, f1, k1]
    · intro i hi
      cases i with
      | zero => exact b2
      | succ i =>
        simp only [List.getElem_cons_succ]
        exact k6 i (by simpa using hi)

/-! ## The initial state -/

theorem extents2 {a b c d : Nat} (h1 : a ≤ b) (h3 : c ≤ d) :
    Dom.extents (seg2 Dim.x Dim.y a b c d) = .ok [(Dim.x, BitVec.ofNat 64 (b - a)), (Dim.y, BitVec.ofNat 64 (d - c))] := by
  obtain ⟨y, y1, y2, y3⟩ := Dom.extents_ok (seg2 Dim.x Dim.y a b c d)
  have e1 := y3 Dim.x _ _ get_seg2_x
  have e2 := y3 Dim.y _ _ (get_seg2_y xy)
  rw [One.ofNat_sub h1] at e1
  rw [One.ofNat_sub h3] at e2
  rw [y1]
  congr 1
  refine ext_get (by rw [y2]; rfl) (by rw [y2]; simp [seg2]) ?_
  intro q hq
  rw [y2, tags_seg2] at hq
  simp only [List.mem_cons, List.not_mem_nil, or_false] at hq
  rcases hq with rfl | rfl
  · rw [e1, get_cons, if_pos rfl]
  · rw [e2, get_cons, if_neg (by decide), get_cons, if_pos rfl]

theorem addVec2 (i j m n : Nat) : Elem.addVec (pt Dim.x Dim.y i j) [(Dim.x, BitVec.ofNat 64 m), (Dim.y, BitVec.ofNat 64 n)] =
    .ok (pt Dim.x Dim.y (i + m) (j + n)) := by
  rw [pt, pt, BitVec.ofNat_add, BitVec.ofNat_add]
  simp [Elem.addVec, Tup.opAssign, Tup.modify]

theorem vsub2 {i j m n : Nat} (h1 : i < 2 ^ 63) (h2 : m ≤ i) (h3 : j < 2 ^ 63) (h4 : n ≤ j) :
    Vect.sub [(Dim.x, BitVec.ofNat 64 i), (Dim.y, BitVec.ofNat 64 j)] [(Dim.x, BitVec.ofNat 64 m), (Dim.y, BitVec.ofNat 64 n)] =
      .ok [(Dim.x, BitVec.ofNat 64 (i - m)), (Dim.y, BitVec.ofNat 64 (j - n))] := by
  simp [Vect.sub, Vect.subAssign, Tup.opAssign, Tup.modify, One.sSub_nat h1 h2, One.sSub_nat h3 h4]

theorem ofSize2 (i j m n : Nat) : Dom.ofSize (pt Dim.x Dim.y i j) [(Dim.x, BitVec.ofNat 64 m), (Dim.y, BitVec.ofNat 64 n)] =
    .ok (seg2 Dim.x Dim.y i (i + m) j (j + n)) := by
  obtain ⟨d, d1, d2, d3⟩ := Dom.ofSize_ok (b := pt Dim.x Dim.y i j) (n := [(Dim.x, BitVec.ofNat 64 m), (Dim.y, BitVec.ofNat 64 n)])
    (by simp [pt]) rfl
  rw [d1]
  congr 1
  refine eq_seg2 xy d2 ?_ ?_
  · rw [BitVec.ofNat_add]
    exact d3 Dim.x _ _ (by rw [pt, get_cons, if_pos rfl]) (by rw [get_cons, if_pos rfl])
  · rw [BitVec.ofNat_add]
    exact d3 Dim.y _ _ (by rw [pt, get_cons, if_neg (by decide), get_cons, if_pos rfl])
      (by rw [get_cons, if_neg (by decide), get_cons, if_pos rfl])

theorem removeFirst2 {a b c d m n : Nat} (h1 : a + m ≤ b) (h2 : b < 2 ^ 63) (h3 : c + n ≤ d) (h4 : d < 2 ^ 63) :
    Dom.removeFirst (seg2 Dim.x Dim.y a b c d) [(Dim.x, BitVec.ofNat 64 m), (Dim.y, BitVec.ofNat 64 n)] =
      .ok (seg2 Dim.x Dim.y (a + m) b (c + n) d) := by
  have hf : Dom.front (seg2 Dim.x Dim.y a b c d) = pt Dim.x Dim.y a c := rfl
  rw [Dom.removeFirst, hf, addVec2, Res.ok_bind, extents2 (by omega) (by omega), Res.ok_bind,
    vsub2 (by omega) (by omega) (by omega) (by omega), Res.ok_bind, ofSize2]
  congr 2 <;> omega

theorem takeFirst2 (a b c d m n : Nat) :
    Dom.takeFirst (seg2 Dim.x Dim.y a b c d) [(Dim.x, BitVec.ofNat 64 m), (Dim.y, BitVec.ofNat 64 n)] =
      .ok (seg2 Dim.x Dim.y a (a + m) c (c + n)) := by
  have hf : Dom.front (seg2 Dim.x Dim.y a b c d) = pt Dim.x Dim.y a c := rfl
  rw [Dom.takeFirst, hf, ofSize2]

theorem remove2 {L H : Nat} (h1 : 2 ≤ L) (h2 : L < 2 ^ 63) (h3 : 2 ≤ H) (h4 : H < 2 ^ 63) :
    Dom.remove (seg2 Dim.x Dim.y 0 L 0 H) [(Dim.x, 1), (Dim.y, 1)] [(Dim.x, 1), (Dim.y, 1)] =
      .ok (seg2 Dim.x Dim.y 1 (L - 1) 1 (H - 1)) := by
  have hf : Dom.front (seg2 Dim.x Dim.y 0 L 0 H) = pt Dim.x Dim.y 0 0 := rfl
  have e1 : ([(Dim.x, 1), (Dim.y, 1)] : Vect Dim) = [(Dim.x, BitVec.ofNat 64 1), (Dim.y, BitVec.ofNat 64 1)] := rfl
  rw [Dom.remove, hf, e1, addVec2, Res.ok_bind, extents2 (by omega) (by omega), Res.ok_bind,
    vsub2 (by omega) (by omega) (by omega) (by omega), Res.ok_bind, vsub2 (by omega) (by omega) (by omega) (by omega),
    Res.ok_bind, ofSize2]
  congr 2 <;> omega

theorem contains2 {a b c d : Nat} (h1 : a ≤ b) (h2 : b < 2 ^ 63) (h3 : c ≤ d) (h4 : d < 2 ^ 63) {i j : Nat} (hi : i < 2 ^ 63)
    (hj : j < 2 ^ 63) : Dom.contains (seg2 Dim.x Dim.y a b c d) [pt Dim.x Dim.y i j] =
      .ok (decide (a ≤ i ∧ i < b ∧ c ≤ j ∧ j < d)) := by
  have hV := seg2_valid xy h1 h2 h3 h4
  obtain ⟨r, r1, r2⟩ := Dom.contains_iff (d := seg2 Dim.x Dim.y a b c d) hV.1 (es := [pt Dim.x Dim.y i j]) rfl
    (ofTuples_one hV.1 (e := pt Dim.x Dim.y i j) rfl)
  rw [r1]
  congr 1
  rw [Bool.eq_iff_iff, r2, inBox2 xy h1 h2 h3 h4 rfl, decide_eq_true_iff]
  constructor
  · rintro ⟨i', j', g1, g2, g3, g4, e⟩
    simp only [pt, List.cons.injEq, Prod.mk.injEq, true_and, and_true] at e
    obtain rfl := ofNat_inj hi (by omega) e.1
    obtain rfl := ofNat_inj hj (by omega) e.2
    exact ⟨g1, g2, g3, g4⟩
  · rintro ⟨g1, g2, g3, g4⟩
    exact ⟨i, j, g1, g2, g3, g4, rfl⟩

/-- The initial cells. -/
def start (i j : Nat) : Bool := decide (1 ≤ i ∧ i < 4 ∧ 2 ≤ j ∧ j < 3)

theorem init_ok (B : Board L H N pos s) (hL : 2 ≤ L) (hH : 2 ≤ H) {mem : Mem Bool} {v : View (Dom Dim)} (hv : OnBoard v s)
    (ha : Alloc mem v.buf N) {order : List (List I64)}
    (ho : order.Perm (Support.policy [BitVec.ofNat 64 L, BitVec.ofNat 64 H])) :
    ∃ m', blinkerInit order (seg2 Dim.x Dim.y 0 L 0 H) v mem = .ok m' ∧ Holds L H pos m' v.buf start ∧ Alloc m' v.buf N ∧
      ∀ b p, b ≠ v.buf → cell m' b p = cell mem b p := by
  have hbx := B.chart.bx; have hby := B.chart.byy
  have hN : 0 < N := by rw [B.size]; positivity
  have hlt : ∀ i j, i < L → j < H → pos i j < N := by
    intro i j hi hj
    have := B.chart.lt_cells xy (Nat.zero_le i) hi (Nat.zero_le j) hj
    rwa [B.cells] at this
  obtain ⟨es, e1, e2⟩ := Heat.schedule2 (a := 0) (b := L) (c := 0) (d := H) (by omega) (by omega) (by omega) (by omega)
    (sched := order) (by simpa using ho)
  let posE : Elem Dim → Nat := fun e => pos (idx Dim.x e) (idx Dim.y e)
  let valE : Elem Dim → Bool := fun e => start (idx Dim.x e) (idx Dim.y e)
  have hE : ∀ i j, i < L → j < H → posE (pt Dim.x Dim.y i j) = pos i j ∧ valE (pt Dim.x Dim.y i j) = start i j := by
    intro i j hi hj
    obtain ⟨h1, h2⟩ := idx_pt (i := i) (j := j) (by omega) (by omega)
    simp only [posE, valE, h1, h2, and_self]
  obtain ⟨m', k1, k2, k3⟩ := Heat.fold_cells (f := fun (ixy : Elem Dim) (mem : Mem Bool) => (do
      let c ← Dom.contains (seg2 Dim.x Dim.y 1 4 2 3) [ixy]
      View.put mem v [ixy] c : Res (Mem Bool))) (bn := v.buf) posE valE mem es
    (by
      intro e he e' he' h
      obtain ⟨i, j, h1, h2, h3, h4, rfl⟩ := (e1 e).1 he
      obtain ⟨i', j', h1', h2', h3', h4', rfl⟩ := (e1 e').1 he'
      rw [(hE i j (by omega) (by omega)).1, (hE i' j' (by omega) (by omega)).1] at h
      obtain ⟨rfl, rfl⟩ := B.inj i j i' j' (by omega) (by omega) (by omega) (by omega) h
      rfl)
    (by
      intro e he m hm1 hm2
      obtain ⟨i, j, h1, h2, h3, h4, rfl⟩ := (e1 e).1 he
      obtain ⟨q1, q2⟩ := hE i j h2 h4
      rw [q1, q2, contains2 (by omega) (by omega) (by omega) (by omega) (by omega) (by omega), Res.ok_bind]
      exact put1 B hv.span h2 h4 (by rw [hm2, ha.isSome]; exact hlt i j h2 h4) _)
    (by
      intro e he
      obtain ⟨i, j, h1, h2, h3, h4, rfl⟩ := (e1 e).1 he
      rw [(hE i j h2 h4).1, ha.isSome]
      exact hlt i j h2 h4)
  have hold : Holds L H pos m' v.buf start := by
    intro i j hi hj
    have := k2 (pt Dim.x Dim.y i j) ((e1 _).2 ⟨i, j, by omega, by omega, by omega, by omega, rfl⟩)
    obtain ⟨q1, q2⟩ := hE i j hi hj
    rwa [q1, q2] at this
  refine ⟨m', ?_, hold, ?_, fun b p h => k3 b p (fun e => absurd e h)⟩
  · have r1 := removeFirst2 (a := 0) (b := L) (c := 0) (d := H) (m := 1) (n := 2) (by omega) (by omega) (by omega) (by omega)
    have r2 := takeFirst2 (0 + 1) L (0 + 2) H 3 1
    rw [blinkerInit]
    have q1 : ([(Dim.x, 1), (Dim.y, 2)] : Vect Dim) = [(Dim.x, BitVec.ofNat 64 1), (Dim.y, BitVec.ofNat 64 2)] := rfl
    have q2 : ([(Dim.x, 3), (Dim.y, 1)] : Vect Dim) = [(Dim.x, BitVec.ofNat 64 3), (Dim.y, BitVec.ofNat 64 1)] := rfl
    rw [q1, r1, Res.ok_bind, q2, r2, Res.ok_bind, e2, k1]
  · refine ha.congr hN (fun p => ?_)
    by_cases h : ∃ e ∈ es, p = posE e
    · obtain ⟨e, he, rfl⟩ := h
      obtain ⟨i, j, h1, h2, h3, h4, rfl⟩ := (e1 e).1 he
      rw [(hE i j h2 h4).1, hold i j h2 h4, ha.isSome]
      simp [hlt i j h2 h4]
    · rw [k3 _ p (fun _ e he e' => h ⟨e, he, e'⟩)]

/-- The whole program. -/
theorem main_ok (hL : 2 ≤ L) (hH : 2 ≤ H) (hL2 : L < 2 ^ 32) (hH2 : H < 2 ^ 32) {nt : Nat} (hnt : nt < 2 ^ 32) (junk : Nat → Bool)
    {initIn initOut : List (List I64)} (hi : initIn.Perm (Support.policy [BitVec.ofNat 64 L, BitVec.ofNat 64 H]))
    (hi' : initOut.Perm (Support.policy [BitVec.ofNat 64 L, BitVec.ofNat 64 H])) {orders : Nat → Orders}
    (ho : ∀ k, OrdersOk L H (orders k)) :
    ∃ l h, main (BitVec.ofNat 32 nt) (BitVec.ofNat 32 L) (BitVec.ofNat 32 H) junk initIn initOut orders = .ok (l, h) ∧
      l.length = nt + 1 ∧ ∀ k, (hk : k < l.length) → ∀ i j, i < L → j < H →
        View.get l[k] h [el Dim.x i, el Dim.y j] = .ok ((next L H)^[k] start i j) := by
  have hLH : L * H < 2 ^ 64 := by
    have : L * H < 2 ^ 32 * 2 ^ 32 := Nat.mul_lt_mul'' hL2 hH2
    omega
  obtain ⟨s, pos, s1, s2, s3, s4⟩ := chart_ofDomain (tx := Dim.x) (ty := Dim.y) (a := 0) (b := L) (c := 0) (d := H) xy
    (by omega) (by omega) (by omega) (by omega) (by simpa using hLH)
  simp only [Nat.sub_zero] at s2
  obtain ⟨N, hN⟩ : ∃ N, N = L * H := ⟨_, rfl⟩
  rw [← hN] at s2
  have hN0 : 0 < N := by rw [hN]; positivity
  have B : Board L H N pos s := ⟨s3, fun i j i' j' a b c d e => s4 i j i' j' (by omega) a (by omega) b (by omega) c (by omega) d e,
    s2, hN, ofDomain_dims s1⟩
  obtain ⟨b, hb⟩ : ∃ b : List Bool, b = (List.range N).map junk := ⟨_, rfl⟩
  have hlen : b.length = N := by rw [hb]; simp
  obtain ⟨m1, c1, c2, c3, c4⟩ := init_ok B hL hH (mem := [b, b, b]) (v := ⟨0, 1, .right, s⟩) ⟨rfl, rfl⟩ ⟨b, rfl, hlen⟩ hi
  have a1 : Alloc m1 1 N := Alloc.congr (mem := [b, b, b]) hN0 ⟨b, rfl, hlen⟩ (fun p => by rw [c4 1 p (show (1 : Nat) ≠ 0 by decide)])
  have a2 : Alloc m1 2 N := Alloc.congr (mem := [b, b, b]) hN0 ⟨b, rfl, hlen⟩ (fun p => by rw [c4 2 p (show (2 : Nat) ≠ 0 by decide)])
  obtain ⟨m2, d1, d2, d3, d4⟩ := init_ok B hL hH (mem := m1) (v := ⟨1, 1, .right, s⟩) ⟨rfl, rfl⟩ a1 hi'
  have a3 : Alloc m2 0 N := Alloc.congr (mem := m1) hN0 c3 (fun p => by rw [d4 0 p (show (0 : Nat) ≠ 1 by decide)])
  have a4 : Alloc m2 2 N := Alloc.congr (mem := m1) hN0 a2 (fun p => by rw [d4 2 p (show (2 : Nat) ≠ 1 by decide)])
  have a5 : Holds L H pos m2 0 start := fun i j hi hj => by rw [d4 0 _ (show (0 : Nat) ≠ 1 by decide)]; exact c2 i j hi hj
  obtain ⟨m3, l, e1, e2, e3, e4, e5, e6⟩ := loop_ok B (by omega) (by omega) hLH (v := ⟨0, 1, .right, s⟩) (w := ⟨1, 1, .right, s⟩)
    (h := ⟨2, 0, .right, s⟩) ⟨rfl, rfl⟩ ⟨rfl, rfl⟩ ⟨rfl, rfl⟩ (show (0 : Nat) ≠ 1 by decide) (show (0 : Nat) ≠ 2 by decide)
    (show (1 : Nat) ≠ 2 by decide) ho nt 0 a3 d3 a4 a5 d2
  obtain ⟨m4, f1, f2, f3, f4⟩ := board_copy B (by omega) (by omega) hLH (v := ⟨2, 0, .right, s⟩) (w := ⟨0, 1, .right, s⟩) ⟨rfl, rfl⟩
    ⟨rfl, rfl⟩ (show (2 : Nat) ≠ 0 by decide) e4 e3 e2 (ho nt).toHost
  refine ⟨l ++ [m4], ⟨2, 0, .right, s⟩, ?_, by simp [e5], ?_⟩
  · have w1 : ∀ (t : Dim) (n : Nat), n < 2 ^ 32 → initTrivialBounded t ((BitVec.ofNat 32 n).setWidth 64) = .ok (seg t 0 n) := by
      intro t n hn
      have : (BitVec.ofNat 32 n).setWidth 64 = BitVec.ofNat 64 n := by
        apply BitVec.eq_of_toNat_eq
        simp only [BitVec.toNat_setWidth, BitVec.toNat_ofNat]
        omega
      have h0 : (Elem.createReference t : Elem Dim) = el t 0 := rfl
      rw [initTrivialBounded, this, h0]
      have := One.ofSize_nat t 0 n
      rwa [vec, Nat.zero_add] at this
    have o1 := Heat.ofDomains_xy 0 L 0 H (by omega) (by omega) (by omega) (by omega)
    have o2 := remove2 (show 2 ≤ L by omega) (by omega) (show 2 ≤ H by omega) (by omega)
    have n1 : newChunk Dom.spanOps junk 1 ([] : Mem Bool) (seg2 Dim.x Dim.y 0 L 0 H) = .ok ([b], ⟨0, 1, .right, s⟩) := by
      rw [newChunk, s1]
      simp [Mem.alloc, s2, hb]
    have n2 : newChunk Dom.spanOps junk 1 ([b] : Mem Bool) (seg2 Dim.x Dim.y 0 L 0 H) = .ok ([b, b], ⟨1, 1, .right, s⟩) := by
      rw [newChunk, s1]
      simp [Mem.alloc, s2, hb]
    have n3 : createMirror Dom.spanOps junk 0 ([b, b] : Mem Bool) ⟨0, 1, .right, s⟩ = .ok ([b, b, b], ⟨2, 0, .right, s⟩) := by
      rw [createMirror, s3.dom, newChunk, s1]
      simp [Mem.alloc, s2, hb]
    have hn : (BitVec.ofNat 32 nt).toNat = nt := by rw [BitVec.toNat_ofNat]; omega
    simp only [main, w1 _ _ hL2, w1 _ _ hH2, o1, o2, Res.ok_bind, n1, n2, n3, c1, d1, hn, e1, f1]
  · intro k hk i j hi hj
    by_cases h : k < l.length
    · rw [List.getElem_append_left h]
      exact get2 B rfl (e6 k h) hi hj
    · have : k = nt := by simp at hk; omega
      subst this
      rw [List.getElem_append_right (by omega)]
      simp only [e5, Nat.sub_self, List.getElem_cons_zero]
      exact get2 B rfl f2 hi hj

end DDC.Life
