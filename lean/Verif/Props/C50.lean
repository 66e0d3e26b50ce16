import Verif.Model.Npy
import Verif.Spec.Npy
import Verif.Lemmas.Npy
import Verif.Props.C18
import Mathlib.Data.Nat.Log

/-!
# C50 — NumPy files
-/

namespace DDC.Props

open Tup Spec Npy

/-- Number of decimal digits. -/
def digitCount (n : Nat) : Nat := Nat.log 10 n + 1

/-- Number of characters of the dictionary `{'descr': '<f8', 'fortran_order': False, 'shape': (3, 4, ), }`:
47 fixed characters, the type string, the Boolean, and each extent followed by two characters. -/
def dictLength (itemsize : Nat) (fortran : Bool) (shape : List Nat) : Nat :=
  47 + (2 + digitCount itemsize) + (if fortran then 4 else 5) + (shape.map (fun n => digitCount n + 2)).sum

/-- A version 1.0 header can hold a dictionary of `n` characters: some length representable on 16
bits, aligned, has room for it and the newline. -/
def HeaderFits (n : Nat) : Prop := ∃ L, L ≤ 65535 ∧ (10 + L) % 16 = 0 ∧ n + 1 ≤ L

private theorem length_toDigits (n : Nat) : (Nat.toDigits 10 n).length = digitCount n := by
  rcases Nat.eq_zero_or_pos n with rfl | h
  · simp [digitCount]
  · have h1 : (Nat.toDigits 10 n).length ≤ digitCount n := by
      rw [Nat.length_toDigits_le_iff (by decide) (by simp [digitCount])]
      exact Nat.lt_pow_succ_log_self (by decide) n
    have h2 : ¬ (Nat.toDigits 10 n).length ≤ Nat.log 10 n ∨ Nat.log 10 n = 0 := by
      rcases Nat.eq_zero_or_pos (Nat.log 10 n) with h0 | h0
      · exact .inr h0
      · left
        rw [Nat.length_toDigits_le_iff (by decide) h0]
        have := Nat.pow_log_le_self 10 (x := n) (by omega)
        omega
    have h3 : (Nat.toDigits 10 n).length ≠ 0 := by
      intro h; exact Nat.toDigits_ne_nil (List.length_eq_zero_iff.1 h)
    simp only [digitCount] at h1 ⊢
    omega

private theorem shapeStr_eq (shape : List U64) :
    shapeStr shape = '(' :: NpyL.body (shape.map BitVec.toNat) ++ ")".toList := by
  rw [shapeStr, NpyL.body, List.flatMap_map]
  rfl

private theorem length_body' (l : List Nat) : (NpyL.body l).length = (l.map (fun n => digitCount n + 2)).sum := by
  induction l with
  | nil => rfl
  | cons n l ih =>
    have e : NpyL.body (n :: l) = Nat.toDigits 10 n ++ [',', ' '] ++ NpyL.body l := by simp [NpyL.body]
    rw [e]
    simp only [List.length_append, List.length_cons, List.length_nil, length_toDigits, ih, List.map_cons, List.sum_cons]

private theorem headerDict_eq (v : ArrayView) : headerDict v =
    "{'descr': '".toList ++ v.dtype.str ++ "', 'fortran_order': ".toList ++
    (if v.fortranOrder then "True".toList else "False".toList) ++ ", 'shape': ".toList ++
    shapeStr v.shape ++ ", }".toList := by
  unfold headerDict
  exact Eq.refl _

private theorem length_headerDict (v : ArrayView) :
    (headerDict v).length = dictLength v.dtype.itemsize.toNat v.fortranOrder (v.shape.map BitVec.toNat) := by
  rw [headerDict_eq, shapeStr_eq, Dtype.str, Npy.toString]
  have a1 : "{'descr': '".toList.length = 11 := by decide +kernel
  have a2 : "', 'fortran_order': ".toList.length = 20 := by decide +kernel
  have a3 : ", 'shape': ".toList.length = 11 := by decide +kernel
  have a4 : ", }".toList.length = 3 := by decide +kernel
  have a5 : ")".toList.length = 1 := by decide +kernel
  have a6 : (if v.fortranOrder then "True".toList else "False".toList).length = if v.fortranOrder then 4 else 5 := by
    split <;> decide +kernel
  simp only [List.length_append, List.length_cons, a1, a2, a3, a4, a5, a6, length_body', length_toDigits, dictLength]
  omega

private theorem ascii (v : ArrayView) : ∀ c ∈ headerDict v, c.toNat < 128 := by
  have dig : ∀ n, ∀ c ∈ Nat.toDigits 10 n, c.toNat < 128 := by
    intro n c hc
    have := Nat.isDigit_of_mem_toDigits (b := 10) (by decide) (by decide) hc
    simp only [Char.isDigit, Bool.and_eq_true, decide_eq_true_eq] at this
    have h2 : c.val ≤ 57 := this.2
    have h3 : c.val.toNat ≤ 57 := UInt32.le_iff_toNat_le.1 h2
    show c.val.toNat < 128
    omega
  intro c hc
  rw [headerDict_eq, shapeStr_eq, Dtype.str, Npy.toString] at hc
  simp only [List.mem_append, List.mem_cons] at hc
  have lit : ∀ s : String, (s.toList.all (fun c => decide (c.toNat < 128))) = true → c ∈ s.toList → c.toNat < 128 := by
    intro s hs hc
    exact of_decide_eq_true (List.all_eq_true.1 hs c hc)
  rcases hc with (((((hc | hc) | hc) | hc) | hc) | ((hc | hc) | hc)) | hc
  · exact lit _ (by decide +kernel) hc
  · rcases hc with rfl | rfl | hc
    · cases v.dtype.byteOrder <;> decide
    · cases v.dtype.kind <;> decide
    · exact dig _ _ hc
  · exact lit _ (by decide +kernel) hc
  · split at hc
    · exact lit _ (by decide +kernel) hc
    · exact lit _ (by decide +kernel) hc
  · exact lit _ (by decide +kernel) hc
  · subst hc; decide
  · rw [NpyL.body, List.mem_flatMap] at hc
    obtain ⟨n, _, hc⟩ := hc
    rcases List.mem_append.1 hc with hc | hc
    · exact dig _ _ hc
    · simp only [List.mem_cons, List.not_mem_nil, or_false] at hc
      rcases hc with rfl | rfl <;> decide
  · exact lit _ (by decide +kernel) hc
  · exact lit _ (by decide +kernel) hc

private theorem byte_char {c : Char} (h : c.toNat < 128) : Char.ofNat (charByte c).toNat = c := by
  have : (charByte c).toNat = c.toNat := by
    rw [charByte, UInt8.toNat_ofNat']
    omega
  rw [this, Char.ofNat_toNat]

private theorem writeLe_ok {n : Nat} (h : n ≤ 65535) : ∃ lo hi : UInt8, writeLe (BitVec.ofNat 16 n) = [lo, hi] ∧
    lo.toNat + 256 * hi.toNat = n := by
  refine ⟨_, _, rfl, ?_⟩
  have h1 : (BitVec.ofNat 16 n).toNat = n := by rw [BitVec.toNat_ofNat]; omega
  have a : ∀ x : Nat, x &&& 255 = x % 256 := fun x => Nat.and_two_pow_sub_one_eq_mod x 8
  simp only [UInt8.toNat_ofNat', BitVec.toNat_and, BitVec.toNat_ushiftRight, h1]
  have e : (0xFF#16).toNat = 255 := rfl
  rw [e, a, a, Nat.shiftRight_eq_div_pow]
  omega

private theorem nElems_toNat (shape : List U64) :
    (nElems shape).toNat = (shape.map BitVec.toNat).prod % 2 ^ 64 := by
  have key : ∀ (l : List U64) (a : U64), (l.foldl (· * ·) a).toNat = (a.toNat * (l.map BitVec.toNat).prod) % 2 ^ 64 := by
    intro l
    induction l with
    | nil => intro a; simp [Nat.mod_eq_of_lt a.isLt]
    | cons n l ih =>
      intro a
      rw [List.foldl_cons, ih, List.map_cons, List.prod_cons, BitVec.toNat_mul, Nat.mod_mul_mod, Nat.mul_assoc]
  rw [nElems, key]
  simp

/-- The number of bytes of the data of an array. -/
def byteCount (itemsize : Nat) (shape : List Nat) : Nat := shape.prod * itemsize

/-- **C50, files.**  For every array whose size in bytes does not overflow and whose data can be read:
if the header is representable the file decodes, with a reader written from the format description,
to the type, order and shape of the array followed by exactly its data; otherwise, and only then, an
exception is thrown. -/
theorem C50_file (v : ArrayView)
    (hsz : byteCount v.dtype.itemsize.toNat (v.shape.map BitVec.toNat) < 2 ^ 64)
    (hrd : byteCount v.dtype.itemsize.toNat (v.shape.map BitVec.toNat) ≤ v.data.length) :
    (¬ HeaderFits (dictLength v.dtype.itemsize.toNat v.fortranOrder (v.shape.map BitVec.toNat)) ∧
      saveNpy v = .throw) ∨
    (HeaderFits (dictLength v.dtype.itemsize.toNat v.fortranOrder (v.shape.map BitVec.toNat)) ∧
      ∃ bs, saveNpy v = .ok bs ∧ Npy.decode bs = some
        { descr := ⟨v.dtype.byteOrder.char, v.dtype.kind.char, v.dtype.itemsize.toNat⟩
          fortran := v.fortranOrder
          shape := v.shape.map BitVec.toNat
          payload := v.data.take (byteCount v.dtype.itemsize.toNat (v.shape.map BitVec.toNat)) }) := by
  rw [← length_headerDict]
  set n := (headerDict v).length with hn
  have hpad : padding n < 16 ∧ (10 + (n + 1 + padding n)) % 16 = 0 := by
    rw [padding]
    omega
  have hraw : (nElems v.shape * v.dtype.itemsize).toNat =
      byteCount v.dtype.itemsize.toNat (v.shape.map BitVec.toNat) := by
    rw [BitVec.toNat_mul, nElems_toNat, Nat.mod_mul_mod]
    exact Nat.mod_eq_of_lt hsz
  by_cases hf : 65535 < n + 1 + padding n
  · left
    refine ⟨?_, ?_⟩
    · rintro ⟨L, h1, h2, h3⟩
      omega
    · rw [saveNpy]
      simp only [← hn, if_pos hf]
  · right
    refine ⟨⟨n + 1 + padding n, by omega, hpad.2, by omega⟩, ?_⟩
    obtain ⟨lo, hi, w1, w2⟩ := writeLe_ok (n := n + 1 + padding n) (by omega)
    set raw := v.data.take (byteCount v.dtype.itemsize.toNat (v.shape.map BitVec.toNat)) with hrawd
    have e1 : writeRaw ((List.replicate 15 ' ').map charByte) (padding n) =
        .ok ((List.replicate (padding n) ' ').map charByte) := by
      rw [writeRaw, if_pos (by simp; omega), ← List.map_take, List.take_replicate, Nat.min_eq_left (by omega)]
    have e2 : writeRaw v.data (nElems v.shape * v.dtype.itemsize).toNat = .ok raw := by
      rw [writeRaw, hraw, if_pos hrd]
    set text := headerDict v ++ (List.replicate (padding n) ' ' ++ ['\n']) with htext
    have hlen : (text.map charByte).length = n + 1 + padding n := by
      rw [List.length_map, htext, List.length_append, List.length_append, List.length_replicate, ← hn,
        List.length_singleton]
      omega
    refine ⟨0x93 :: 0x4E :: 0x55 :: 0x4D :: 0x50 :: 0x59 :: 1 :: 0 :: lo :: hi :: (text.map charByte ++ raw), ?_, ?_⟩
    · rw [saveNpy]
      simp only [← hn, if_neg hf, e1, e2, Res.ok_bind, w1, Res.pure_eq, htext, List.map_append, List.map_cons,
        List.map_nil, List.append_assoc, List.cons_append, List.nil_append]
    · have htxt : (text.map charByte).map (fun b : UInt8 => Char.ofNat b.toNat) = text := by
        rw [List.map_map]
        conv_rhs => rw [← List.map_id text]
        refine List.map_congr_left ?_
        intro c hc
        refine byte_char ?_
        rw [htext] at hc
        rcases List.mem_append.1 hc with hc | hc
        · exact ascii v c hc
        · rcases List.mem_append.1 hc with hc | hc
          · rw [(List.mem_replicate.1 hc).2]; decide
          · rw [List.mem_singleton.1 hc]; decide
      have hh : Npy.pHeader text = some (⟨v.dtype.byteOrder.char, v.dtype.kind.char, v.dtype.itemsize.toNat⟩,
          v.fortranOrder, v.shape.map BitVec.toNat) := by
        rw [htext, headerDict_eq, shapeStr_eq]
        exact NpyL.pHeader_ok (by cases v.dtype.byteOrder <;> decide) (by cases v.dtype.kind <;> decide) _ _ _ _
      have ht : (text.map charByte ++ raw).take (n + 1 + padding n) = text.map charByte := by
        rw [← hlen, List.take_left]
      have hd : (text.map charByte ++ raw).drop (n + 1 + padding n) = raw := by
        rw [← hlen, List.drop_left]
      have hc : n + 1 + padding n ≤ (text.map charByte ++ raw).length ∧ (10 + (n + 1 + padding n)) % 16 = 0 :=
        ⟨by rw [List.length_append, hlen]; omega, hpad.2⟩
      show (do
        if lo.toNat + 256 * hi.toNat ≤ (text.map charByte ++ raw).length ∧ (10 + (lo.toNat + 256 * hi.toNat)) % 16 = 0
        then do
          let (d, f, s) ← Npy.pHeader (((text.map charByte ++ raw).take (lo.toNat + 256 * hi.toNat)).map
            (fun b : UInt8 => Char.ofNat b.toNat))
          some (⟨d, f, s, (text.map charByte ++ raw).drop (lo.toNat + 256 * hi.toNat)⟩ : Npy.File)
        else none) = _
      rw [w2, if_pos hc, ht, hd, htxt, hh]
      rfl

/-! ## Chunks -/

section chunks

variable {τ : Type} [DecidableEq τ] {α D : Type} {ops : SpanOps τ D} {eq : D → D → Res Bool}
  {axesOf : D → List (τ × List U64)} {V : D → Prop}

omit [DecidableEq τ] in
private theorem getElem_flatMap {A B : Type} {f : A → List B} {n : Nat} (hf : ∀ a, (f a).length = n) (l : List A)
    (i j : Nat) (hj : j < n) : (l.flatMap f)[i * n + j]? = l[i]?.bind (fun a => (f a)[j]?) := by
  induction l generalizing i with
  | nil => simp
  | cons a l ih =>
    rw [List.flatMap_cons]
    cases i with
    | zero =>
      rw [Nat.zero_mul, Nat.zero_add, List.getElem?_append_left (by rw [hf]; exact hj)]
      simp
    | succ i =>
      have e : (i + 1) * n + j = n + (i * n + j) := by ring
      rw [e, List.getElem?_append_right (by rw [hf]; omega), hf, Nat.add_sub_cancel_left, ih]
      simp

omit [DecidableEq τ] in
private theorem take_flatMap {A B : Type} {f : A → List B} {n : Nat} (hf : ∀ a, (f a).length = n) (l : List A)
    (k : Nat) : (l.flatMap f).take (k * n) = (l.take k).flatMap f := by
  induction l generalizing k with
  | nil => simp
  | cons a l ih =>
    cases k with
    | zero => simp
    | succ k =>
      have e : (k + 1) * n = (f a).length + k * n := by rw [hf]; ring
      rw [List.flatMap_cons, e, List.take_length_add_append, ih, List.take_succ_cons, List.flatMap_cons]

omit [DecidableEq τ] in
/-- The element with positions `is` is at the row-major rank of `is`. -/
private theorem picks_rank {ax : List (τ × List U64)} {is : List I64} {e : Elem τ} (h : Picks ax is e) :
    (cart ax)[radix (ax.map (fun a => a.2.length)) (is.map BitVec.toNat)]? = some e := by
  induction ax generalizing is e with
  | nil =>
    cases is <;> cases e <;> simp only [Picks] at h
    rfl
  | cons a ax ih =>
    obtain ⟨t, l⟩ := a
    cases is with
    | nil => cases e <;> simp only [Picks] at h
    | cons i is =>
      cases e with
      | nil => simp only [Picks] at h
      | cons p e =>
        obtain ⟨u, x⟩ := p
        obtain ⟨rfl, h1, h2⟩ := h
        simp only [cart, List.map_cons, radix]
        rw [getElem_flatMap (n := (ax.map (fun a => a.2.length)).prod)
          (by intro a; rw [List.length_map, length_cart]) _ _ _ (radix_lt (picks_within h2)), h1]
        simp [ih h2]

/-- Row-major views hold their elements in the order of the domain. -/
private theorem right_order (K : SpanKind ops axesOf V) {mem : Mem α} {v : View D} (hu : Usable ops V mem v)
    (hr : v.layout = .right) (hc : ((axesOf v.span.dom).map (fun a => a.2.length)).prod < 2 ^ 64) :
    ∃ l, mem[v.buf]? = some l ∧
      ((axesOf v.span.dom).map (fun a => a.2.length)).prod ≤ (l.drop v.span.md.off).length ∧
      List.Forall₂ (fun e x => valueAt ops mem v e = .ok x) (cart (axesOf v.span.dom))
        ((l.drop v.span.md.off).take ((axesOf v.span.dom).map (fun a => a.2.length)).prod) := by
  obtain ⟨l, hl, hlen⟩ := hu.alloc
  set ax := axesOf v.span.dom with hax
  have hnd := K.nodup _ hu.valid
  have hdims := K.dims hu.valid hu.wf
  have hlay : MDSpan.layoutRight (v.span.md.dims.map Prod.fst) = v.span.md.dims := by
    have := hu.layout
    rw [hr] at this
    exact this
  have hcart : (cart ax).Nodup := nodup_cart (fun a ha =>
    (K.sorted _ hu.valid a ha).imp (fun h he => by rw [he] at h; exact absurd h (lt_irrefl _)))
  have key : ∀ k e, (cart ax)[k]? = some e → v.span.access ops [e] = .ok (v.span.md.off + k) ∧
      v.span.md.off + k < v.span.md.cells := by
    intro k e hk
    have hin : e ∈ cart ax := List.mem_of_getElem? hk
    have ht : tags e = tags ax := (mem_cart.1 hin).1
    obtain ⟨w, _, _, _, w4, w5, a, b⟩ := K.access_mem hu.valid hu.wf (es := [e]) (by simp [ht, hax])
      (ofTuples_one hnd ht) hin
    have hne := MDSpan.inExt_pos w5
    have hoff : offset v.span.md.dims (vals w) =
        radix (ax.map (fun a => a.2.length)) ((vals w).map BitVec.toNat) := by
      rw [← hdims, ← hlay, MDSpan.map_fst_layoutRight]
      refine (MDSpan.layoutRight_ok ?_ (by rw [hdims]; exact hc)).2 _
      intro m hm
      obtain ⟨y, hy, rfl⟩ := List.mem_map.1 hm
      exact hne y hy
    have hk2 := picks_rank w4
    rw [← hoff] at hk2
    have : offset v.span.md.dims (vals w) = k := by
      obtain ⟨i1, i2⟩ := List.getElem?_eq_some_iff.1 hk
      obtain ⟨j1, j2⟩ := List.getElem?_eq_some_iff.1 hk2
      exact (List.Nodup.getElem_inj_iff hcart).1 (j2.trans i2.symm)
    rw [this] at a b
    exact ⟨a, b⟩
  have hlen2 : (ax.map (fun a => a.2.length)).prod ≤ (l.drop v.span.md.off).length := by
    rw [List.length_drop, hlen]
    rcases Nat.eq_zero_or_pos (ax.map (fun a => a.2.length)).prod with h0 | h0
    · omega
    · have hk : (ax.map (fun a => a.2.length)).prod - 1 < (cart ax).length := by rw [length_cart]; omega
      have := (key _ _ (List.getElem?_eq_getElem hk)).2
      omega
  refine ⟨l, hl, hlen2, ?_⟩
  rw [List.forall₂_iff_get]
  refine ⟨by rw [List.length_take, length_cart, Nat.min_eq_left hlen2], ?_⟩
  intro k h1 h2
  obtain ⟨a, b⟩ := key k _ (List.getElem?_eq_getElem h1)
  rw [List.get_eq_getElem, List.get_eq_getElem, List.getElem_take, List.getElem_drop, valueAt, a, Res.ok_bind,
    Mem.read, hl]
  simp only [Span.read]
  rw [List.getElem?_eq_getElem (by omega)]

/-- A chunk has been saved: the file decodes to its type, its shape and, as data, the values `value e`
of its elements `e` in the order `order`, each with its bytes `enc`; the order declared is the
row-major one.  If the header is not representable, and only then, an exception was thrown. -/
def SavedAs (dt : Dtype) (size : Nat) (shape : List Nat) (order : List (Elem τ)) (value : Elem τ → Res α)
    (enc : α → List UInt8) (result : Res (List UInt8)) : Prop :=
  ∃ xs, List.Forall₂ (fun e x => value e = .ok x) order xs ∧
    ((¬ HeaderFits (dictLength size false shape) ∧ result = .throw) ∨
    (HeaderFits (dictLength size false shape) ∧ ∃ bs, result = .ok bs ∧
      Npy.decode bs = some ⟨⟨dt.byteOrder.char, dt.kind.char, size⟩, false, shape, xs.flatMap enc⟩))

private theorem save_of (K : SpanKind ops axesOf V) {card : D → Nat} (C : CopyLaws ops eq V card)
    (hcard : ∀ d, V d → card d = ((axesOf d).map (fun a => a.2.length)).prod)
    (accessible : Nat → Nat → Bool) (junk : Nat → α) (sched1 sched2 : List (List U64)) (host : Nat) (e : Endian)
    (t : Scalar) (size : U64) (enc : α → List UInt8) (mem : Mem α) (src : View D) (dt : Dtype)
    (hs : Usable ops V mem src)
    (hc : ((axesOf src.span.dom).map (fun a => a.2.length)).prod < 2 ^ 64)
    (hb : ((axesOf src.span.dom).map (fun a => a.2.length)).prod * size.toNat < 2 ^ 64)
    (henc : ∀ x, (enc x).length = size.toNat) (hdt : convertToNpyDtype e t size = .ok dt)
    (h1 : sched1.Perm (MDSpan.indices (src.span.md.dims.map Prod.fst)))
    (h2 : sched2.Perm (MDSpan.indices (src.span.md.dims.map Prod.fst))) :
    SavedAs dt size.toNat ((axesOf src.span.dom).map (fun a => a.2.length)) (cart (axesOf src.span.dom))
      (valueAt ops mem src) enc (saveChunk ops eq accessible junk sched1 sched2 host e t size enc mem src) := by
  have hsz : dt.itemsize = size := by
    cases t <;> simp only [convertToNpyDtype] at hdt
    all_goals first | (cases hdt; done) | (cases hdt; rfl)
  obtain ⟨m1, v1, a1, a2, a3, a4, a5⟩ := C.layout_right junk mem src sched1 hs
    (by rw [hcard _ hs.valid]; exact hc) h1
  have u1 : Usable ops V m1 v1 := by
    split at a5
    · obtain ⟨rfl, rfl⟩ := a5; exact hs
    · exact a5.usable
  have d1 : v1.span.md.dims.map Prod.fst = src.span.md.dims.map Prod.fst := by
    obtain ⟨x, x1, x2⟩ := u1.wf.exts
    obtain ⟨y, y1, y2⟩ := hs.wf.exts
    rw [a3, y1] at x1
    rw [x2, y2, Res.ok.inj x1]
  obtain ⟨m2, v2, b1, b2, b3⟩ := C.mirror_view_and_copy accessible junk host m1 v1 sched2 u1 a2
    (by rw [hcard _ u1.valid, a3]; exact hc)
    (by rw [d1]; exact h2)
  have u2 : Usable ops V m2 v2 ∧ v2.layout = .right ∧ v2.span.dom = src.span.dom := by
    split at b3
    · obtain ⟨rfl, rfl⟩ := b3; exact ⟨u1, a2, a3⟩
    · exact ⟨b3.usable, b3.placed.2, by rw [b3.domain, a3]⟩
  obtain ⟨u2, r2, e2⟩ := u2
  obtain ⟨l, l1, l2, l3⟩ := right_order K u2 r2 (by rw [e2]; exact hc)
  rw [e2] at l2 l3
  set n := ((axesOf src.span.dom).map (fun a => a.2.length)).prod with hn
  refine ⟨(l.drop v2.span.md.off).take n, ?_, ?_⟩
  · rw [List.forall₂_iff_get] at l3 ⊢
    refine ⟨l3.1, ?_⟩
    intro k k1 k2
    have hin : (cart (axesOf src.span.dom)).get ⟨k, k1⟩ ∈ cart (axesOf src.span.dom) := List.get_mem _ _
    generalize hE : (cart (axesOf src.span.dom)).get ⟨k, k1⟩ = E at hin
    have htg : tags E = tags (axesOf src.span.dom) := (mem_cart.1 hin).1
    have ht : tags E = ops.tags src.span.dom := by rw [K.tags _ hs.valid]; exact htg
    have hcn : ops.contains src.span.dom [E] = .ok true := by
      obtain ⟨c, c1, c2⟩ := K.contains _ hs.valid [E] E (by simp [htg])
        (ofTuples_one (K.nodup _ hs.valid) htg)
      rw [c1, c2.2 hin]
    obtain ⟨x, x1, x2⟩ := a4 E ht hcn
    obtain ⟨y, y1, y2⟩ := b2 E (by rw [a3]; exact ht) (by rw [a3]; exact hcn)
    have z := l3.2 k k1 k2
    rw [hE, y2] at z
    rw [x2] at y1
    rw [x1, Res.ok.inj y1, Res.ok.inj z]
  · have hshape : (v2.span.md.dims.map Prod.fst).map BitVec.toNat = (axesOf src.span.dom).map (fun a => a.2.length) := by
      rw [K.dims u2.valid u2.wf, e2]
    have hbc : byteCount size.toNat ((v2.span.md.dims.map Prod.fst).map BitVec.toNat) = n * size.toNat := by
      rw [byteCount, hshape]
    have hcall : saveChunk ops eq accessible junk sched1 sched2 host e t size enc mem src =
        saveNpy ⟨(l.drop v2.span.md.off).flatMap enc, dt, v2.span.md.dims.map Prod.fst, false⟩ := by
      rw [saveChunk, a1, Res.ok_bind]
      dsimp only
      rw [b1, Res.ok_bind]
      dsimp only
      rw [toNpArrayView, hdt, Res.ok_bind, l1, r2]
      rfl
    have := C50_file ⟨(l.drop v2.span.md.off).flatMap enc, dt, v2.span.md.dims.map Prod.fst, false⟩
    dsimp only at this
    rw [hsz, hbc, hshape, ← hcall, take_flatMap henc] at this
    refine this hb ?_
    have hfl : ((l.drop v2.span.md.off).flatMap enc).length = (l.drop v2.span.md.off).length * size.toNat := by
      rw [List.length_flatMap]
      generalize l.drop v2.span.md.off = L
      induction L with
      | nil => simp
      | cons a L ih => rw [List.map_cons, List.sum_cons, ih, henc, List.length_cons]; ring
    rw [hfl]
    exact Nat.mul_le_mul_right _ l2

/-- **C50, chunks on contiguous domains**, of any layout and in any memory space: the data are the
values of the elements of the domain in lexicographic order. -/
theorem C50_contiguous (accessible : Nat → Nat → Bool) (junk : Nat → α) (sched1 sched2 : List (List U64)) (host : Nat)
    (e : Endian) (t : Scalar) (size : U64) (enc : α → List UInt8) (mem : Mem α) (src : View (Dom τ)) (dt : Dtype)
    (hs : Usable Dom.spanOps Valid mem src) (hc : card src.span.dom < 2 ^ 64)
    (hb : card src.span.dom * size.toNat < 2 ^ 64) (henc : ∀ x, (enc x).length = size.toNat)
    (hdt : convertToNpyDtype e t size = .ok dt)
    (h1 : sched1.Perm (MDSpan.indices (src.span.md.dims.map Prod.fst)))
    (h2 : sched2.Perm (MDSpan.indices (src.span.md.dims.map Prod.fst))) :
    SavedAs dt size.toNat ((axes src.span.dom).map (fun a => a.2.length)) (cart (axes src.span.dom))
      (valueAt Dom.spanOps mem src) enc
      (saveChunk Dom.spanOps Dom.eq accessible junk sched1 sched2 host e t size enc mem src) := by
  rw [card_eq hs.valid.1] at hc hb
  exact save_of spanKind_dom C18_contiguous (fun d hd => card_eq hd.1) accessible junk sched1 sched2 host e t size enc
    mem src dt hs hc hb henc hdt h1 h2

/-- **C50, chunks on strided domains.** -/
theorem C50_strided (accessible : Nat → Nat → Bool) (junk : Nat → α) (sched1 sched2 : List (List U64)) (host : Nat)
    (e : Endian) (t : Scalar) (size : U64) (enc : α → List UInt8) (mem : Mem α) (src : View (SDom τ)) (dt : Dtype)
    (hs : Usable SDom.spanOps SSafe mem src) (hc : scard src.span.dom < 2 ^ 64)
    (hb : scard src.span.dom * size.toNat < 2 ^ 64) (henc : ∀ x, (enc x).length = size.toNat)
    (hdt : convertToNpyDtype e t size = .ok dt)
    (h1 : sched1.Perm (MDSpan.indices (src.span.md.dims.map Prod.fst)))
    (h2 : sched2.Perm (MDSpan.indices (src.span.md.dims.map Prod.fst))) :
    SavedAs dt size.toNat ((saxes src.span.dom).map (fun a => a.2.length)) (cart (saxes src.span.dom))
      (valueAt SDom.spanOps mem src) enc
      (saveChunk SDom.spanOps SDom.eq accessible junk sched1 sched2 host e t size enc mem src) := by
  rw [scard_eq hs.valid.1.1] at hc hb
  exact save_of spanKind_strided C18_strided (fun d hd => scard_eq hd.1.1) accessible junk sched1 sched2 host e t size
    enc mem src dt hs hc hb henc hdt h1 h2

/-- **C50, chunks on sparse domains.** -/
theorem C50_sparse (accessible : Nat → Nat → Bool) (junk : Nat → α) (sched1 sched2 : List (List U64)) (host : Nat)
    (e : Endian) (t : Scalar) (size : U64) (enc : α → List UInt8) (mem : Mem α) (src : View (SpDom τ)) (dt : Dtype)
    (hs : Usable SpDom.spanOps SpValid mem src) (hc : (src.span.dom.map (fun a => a.2.length)).prod < 2 ^ 64)
    (hb : (src.span.dom.map (fun a => a.2.length)).prod * size.toNat < 2 ^ 64)
    (henc : ∀ x, (enc x).length = size.toNat)
    (hdt : convertToNpyDtype e t size = .ok dt)
    (h1 : sched1.Perm (MDSpan.indices (src.span.md.dims.map Prod.fst)))
    (h2 : sched2.Perm (MDSpan.indices (src.span.md.dims.map Prod.fst))) :
    SavedAs dt size.toNat (src.span.dom.map (fun a => a.2.length)) (cart src.span.dom)
      (valueAt SpDom.spanOps mem src) enc
      (saveChunk SpDom.spanOps SpDom.eq accessible junk sched1 sched2 host e t size enc mem src) :=
  save_of spanKind_sparse C18_sparse (fun _ _ => rfl) accessible junk sched1 sched2 host e t size enc
    mem src dt hs hc hb henc hdt h1 h2

end chunks

/-! ## Types -/

/-- The kind character NumPy gives to each element type (array interface protocol), `none` for the
types that are rejected at compile time. -/
def kindOf : Scalar → Option Char
  | .bool => some 'b'
  | .byte => some 'V'
  | .complex => some 'c'
  | .longDouble => none
  | .floating => some 'f'
  | .signed => some 'i'
  | .unsigned => some 'u'
  | .otherType => none

/-- **C50, types.**  The type string has the kind of the element type, its size and the byte order of
the machine, `|` for types of one byte; other element types do not compile. -/
theorem C50_dtype (e : Endian) (t : Scalar) (size : U64) :
    (kindOf t = none ∧ convertToNpyDtype e t size = .ill) ∨
    ∃ dt k, kindOf t = some k ∧ convertToNpyDtype e t size = .ok dt ∧ dt.kind.char = k ∧ dt.itemsize = size ∧
      dt.byteOrder.char = (if size = 1 then '|' else if e = some true then '<' else if e = some false then '>'
        else '|') := by
  have h : (getByteOrder e size).char = (if size = 1 then '|' else if e = some true then '<'
      else if e = some false then '>' else '|') := by
    unfold getByteOrder
    by_cases h1 : size = 1
    · rw [if_pos h1, if_pos h1]; rfl
    · rw [if_neg h1, if_neg h1]
      rcases e with - | - | - <;> rfl
  cases t
  all_goals first
    | exact .inl ⟨rfl, rfl⟩
    | exact .inr ⟨_, _, rfl, rfl, rfl, rfl, h⟩

/-! ## When the header is representable -/

private theorem digitCount_le (n : U64) : digitCount n.toNat ≤ 20 := by
  have h := n.isLt
  have : Nat.log 10 n.toNat < 20 := by
    rcases Nat.eq_zero_or_pos n.toNat with h0 | h0
    · rw [h0]; simp
    · exact Nat.log_lt_of_lt_pow (by omega) (by omega)
  rw [digitCount]
  omega

/-- Arrays of at most 2975 dimensions are never refused. -/
theorem C50_no_throw (itemsize : U64) (fortran : Bool) (shape : List U64) (h : shape.length ≤ 2975) :
    HeaderFits (dictLength itemsize.toNat fortran (shape.map BitVec.toNat)) := by
  have hsum : ((shape.map BitVec.toNat).map (fun n => digitCount n + 2)).sum ≤ 22 * shape.length := by
    clear h
    induction shape with
    | nil => simp
    | cons n l ih =>
      have := digitCount_le n
      simp only [List.map_cons, List.sum_cons, List.length_cons]
      omega
  have := digitCount_le itemsize
  have h5 : (if fortran then 4 else 5 : Nat) ≤ 5 := by split <;> omega
  refine ⟨65526, by omega, by decide, ?_⟩
  rw [dictLength]
  omega

/-- Some arrays are refused: here one element in 22000 dimensions or more. -/
theorem C50_throws (n : Nat) (hn : 22000 ≤ n) :
    saveNpy ⟨[7], ⟨.notApplicable, .unsignedInt, 1⟩, List.replicate n 1, false⟩ = .throw := by
  have hb : byteCount 1 (List.replicate n 1) = 1 := by simp [byteCount]
  have hm : (List.replicate n (1 : U64)).map BitVec.toNat = List.replicate n 1 := by
    rw [List.map_replicate]; rfl
  have := C50_file ⟨[7], ⟨.notApplicable, .unsignedInt, 1⟩, List.replicate n 1, false⟩
  dsimp only at this
  rw [hm] at this
  have h1 : (1 : U64).toNat = 1 := rfl
  rw [h1, hb] at this
  rcases this (by decide) (by simp) with ⟨_, h⟩ | ⟨⟨L, l1, _, l3⟩, _⟩
  · exact h
  · exfalso
    rw [dictLength, List.map_replicate, List.sum_replicate_nat] at l3
    have : digitCount 1 = 1 := by simp [digitCount]
    rw [this] at l3
    omega

/-! ## Examples -/

/-- A column-major chunk of 2 × 3 values. -/
def exampleSrc : View (Dom Char) :=
  ⟨0, 0, .left, ⟨⟨0, [(2, 1), (3, 2)], 6⟩, [('x', (3, 5)), ('y', (7, 10))]⟩⟩

private theorem exampleSrc_usable : Usable (α := Nat) Dom.spanOps Valid [[0, 10, 1, 11, 2, 12]] exampleSrc := by
  refine ⟨⟨by decide, ?_⟩, ⟨⟨[('x', 2), ('y', 3)], by decide, by decide⟩, ⟨by decide, by intro _; decide⟩⟩, by decide,
    _, rfl, rfl⟩
  intro q hq
  simp only [exampleSrc, tags_cons, tags_nil, List.mem_cons, List.not_mem_nil, or_false] at hq
  rcases hq with rfl | rfl <;> decide

/-- The hypotheses of `C50_contiguous` can be met, by a chunk whose layout is not the one of the file. -/
example : SavedAs ⟨.little, .unsignedInt, 2⟩ 2 [2, 3] (cart (axes exampleSrc.span.dom))
    (valueAt Dom.spanOps [[0, 10, 1, 11, 2, 12]] exampleSrc) (fun n => [UInt8.ofNat n, 0])
    (saveChunk Dom.spanOps Dom.eq (fun _ _ => false) (fun _ => 99)
      (MDSpan.indices [2, 3]).reverse (MDSpan.indices [2, 3]) 1 (some true) .unsigned 2
      (fun n => [UInt8.ofNat n, 0]) [[0, 10, 1, 11, 2, 12]] exampleSrc) :=
  C50_contiguous _ _ _ _ _ _ _ 2 _ _ _ ⟨.little, .unsignedInt, 2⟩ exampleSrc_usable (by decide) (by decide)
    (fun _ => rfl) rfl (List.reverse_perm _) (List.Perm.refl _)

/-- The file obtained. -/
example : (match saveChunk Dom.spanOps Dom.eq (fun _ _ => false) (fun _ => 99)
      (MDSpan.indices [2, 3]).reverse (MDSpan.indices [2, 3]) 1 (some true) .unsigned 2
      (fun n => [UInt8.ofNat n, 0]) [[0, 10, 1, 11, 2, 12]] exampleSrc with
    | .ok bs => Npy.decode bs
    | _ => none) =
    some ⟨⟨'<', 'u', 2⟩, false, [2, 3], [0, 0, 1, 0, 2, 0, 10, 0, 11, 0, 12, 0]⟩ := by
  decide +kernel

/-- The hypotheses of `C50_file` can be met, in the other order. -/
example : ∃ bs, saveNpy ⟨[1, 2, 3, 4], ⟨.big, .signedInt, 2⟩, [2, 1], true⟩ = .ok bs ∧
    Npy.decode bs = some ⟨⟨'>', 'i', 2⟩, true, [2, 1], [1, 2, 3, 4]⟩ := by
  rcases C50_file ⟨[1, 2, 3, 4], ⟨.big, .signedInt, 2⟩, [2, 1], true⟩ (by decide) (by decide) with ⟨h, _⟩ | ⟨_, h⟩
  · exact absurd (C50_no_throw 2 true [2, 1] (by decide)) h
  · exact h

end DDC.Props
