import Verif.Model.RoundedOutput
import Verif.Lemmas.SpanKind
import Verif.Props.C64

/-!
# C88 — the mean shown by the example programs, with rounding
-/

namespace DDC.Props

open Tup Spec
open Support hiding tags

variable {τ : Type} [DecidableEq τ] {fl : Rat → Rat}

/-- `serial_combines` of C64 for a function that need only be defined on the elements of the domain. -/
private theorem serial_combines_on {T : Type} {S : Support τ} {ax : List (τ × List U64)} (hg : Grid S ax) (op : T → T → T)
    (neutral : T) (f : Elem τ → Res T) (g : Elem τ → T) :
    ∀ (post pre : List (τ × List U64)) (is : List I64) (e : Elem τ), ax = pre ++ post → Picks pre is e →
      (∀ e' ∈ cart post, f (e ++ e') = .ok (g (e ++ e'))) →
      ∃ v, transformReduceSerial S neutral (fun a b => .ok (op a b)) f
        (post.map (fun a => BitVec.ofNat 64 a.2.length)) is = .ok v ∧
        Combines op neutral ((cart post).map (fun e' => g (e ++ e'))).reverse v := by
  intro post
  induction post with
  | nil =>
    intro pre is e hax hp hf
    simp only [List.append_nil] at hax
    have hf' := hf [] (by simp [cart])
    rw [List.append_nil] at hf'
    refine ⟨g e, ?_, ?_⟩
    · simp only [List.map_nil, transformReduceSerial, leaf, hg.tags]
      rw [hg.pick is e (hax ▸ hp), Res.ok_bind, hf']
    · simp only [cart, List.map_cons, List.append_nil, List.map_nil, List.reverse_singleton]
      exact .one _
  | cons a post ih =>
    intro pre is e hax hp hf
    obtain ⟨t, l⟩ := a
    have hl : l.length < 2 ^ 63 := hg.small (t, l) (by simp [hax])
    simp only [List.map_cons, transformReduceSerial, cart]
    rw [loop_zero, toInt_ofNat_small hl, Int.toNat_natCast]
    have hv : ∀ (i : Nat) x, l[i]? = some x → ∃ v, transformReduceSerial S neutral (fun a b => .ok (op a b))
        f (post.map (fun a => BitVec.ofNat 64 a.2.length))
          (is ++ [BitVec.ofInt 64 (i : Int)]) = .ok v ∧
        Combines op neutral ((cart post).map (fun e' => g (e ++ [(t, x)] ++ e'))).reverse v := by
      intro i x hx
      have hi : i < l.length := (List.getElem?_eq_some_iff.1 hx).1
      refine ih (pre ++ [(t, l)]) _ (e ++ [(t, x)]) (by simp [hax])
        (picks_append hp (by rw [toNat_ofInt_small (by omega)]; exact hx)) ?_
      intro e' he'
      have := hf ((t, x) :: e') (by
        simp only [cart, List.mem_flatMap, List.mem_map]
        exact ⟨x, List.mem_of_getElem? hx, e', he', rfl⟩)
      simpa using this
    have key : ∀ m, m ≤ l.length → ∃ v, (List.range m).foldlM (fun (r : T) (i : Nat) => do
        let x ← transformReduceSerial S neutral (fun a b => .ok (op a b))
          f (post.map (fun a : τ × List U64 => BitVec.ofNat 64 a.2.length)) (is ++ [BitVec.ofInt 64 (i : Int)])
        (fun a b => Res.ok (op a b)) x r) neutral = .ok v ∧
        Combines op neutral ((((l.take m).flatMap (fun x => (cart post).map (fun e' => (t, x) :: e'))).map
          (fun e' => g (e ++ e'))).reverse) v := by
      intro m
      induction m with
      | zero => intro _; exact ⟨neutral, rfl, .unit⟩
      | succ m ihm =>
        intro hm
        obtain ⟨r, r1, r2⟩ := ihm (by omega)
        have hx : l[m]? = some l[m] := List.getElem?_eq_getElem (by omega)
        obtain ⟨v, v1, v2⟩ := hv m _ hx
        refine ⟨op v r, ?_, ?_⟩
        · rw [List.range_succ, List.foldlM_append, r1, Res.ok_bind, List.foldlM_cons, v1, Res.ok_bind]
          rfl
        · have hjoin := Combines.join v2 r2
          rw [List.take_add_one, hx]
          simp only [Option.toList_some, List.flatMap_append, List.flatMap_singleton, List.map_append, List.reverse_append]
          simpa [List.map_map, Function.comp_def] using hjoin
    obtain ⟨v, v1, v2⟩ := key l.length le_rfl
    rw [List.take_length] at v2
    exact ⟨v, v1, v2⟩

/-- The values of a chunk: `l` lists the elements of its domain once each, in any order, and the cell of `e` contains `g e`. -/
structure ChunkValues (temp : View (Dom τ)) (mem : Mem Rat) (l : List (Elem τ)) (g : Elem τ → Rat) : Prop where
  valid : Valid temp.span.dom
  nodup : l.Nodup
  elements : ∀ e, e ∈ l ↔ tags e = tags temp.span.dom ∧ Dom.contains temp.span.dom [e] = .ok true
  value : ∀ e ∈ l, View.get mem temp [e] = .ok (g e)

/-- What `meanShown` computes: the rounded sum in some order, divided by the number of elements. -/
private theorem mean_combines {temp : View (Dom τ)} {mem : Mem Rat} {l : List (Elem τ)} {g : Elem τ → Rat}
    (hfl : RoundsNearest fl) (h : ChunkValues temp mem l g) (h0 : l ≠ []) (hn : l.length ≤ 2 ^ 53) :
    ∃ s xs, Rounded.meanShown fl temp mem = .ok (fl (s / l.length)) ∧ xs.Perm (l.map g) ∧ Combines (Rounded.sum fl) 0 xs s := by
  have hg := grid_dom h.valid
  have hp : (cart (axes temp.span.dom)).Perm l :=
    (List.perm_ext_iff_of_nodup (nodup_of_lex (lex_axes _)) h.nodup).2
      (fun e => (mem_cart_axes h.valid e).trans (h.elements e).symm)
  obtain ⟨s, s1, s2⟩ := serial_combines_on hg (Rounded.sum fl) 0 (fun e => View.get mem temp [e]) g (axes temp.span.dom) [] [] [] rfl
    trivial (fun e he => h.value e (hp.mem_iff.1 he))
  have hs : transformReduce (Dom.support temp.span.dom) 0 (fun a b => .ok (Rounded.sum fl a b)) (fun e => View.get mem temp [e]) =
      .ok s := by
    simp only [transformReduce, hg.extents, Res.ok_bind, vals_lengths]
    rw [s1]; rfl
  have hlen : card temp.span.dom = l.length := by
    rw [card_eq h.valid.1, ← length_cart, hp.length_eq]
  obtain ⟨z, z1, z2⟩ := Dom.size_ok temp.span.dom h.valid
  have hpos := List.length_pos_iff.2 h0
  rw [hlen, Nat.mod_eq_of_lt (by omega)] at z2
  have hz : z ≠ 0 := by rintro rfl; simp at z2; omega
  refine ⟨s, _, ?_, ((cart (axes temp.span.dom)).map g).reverse_perm.trans (hp.map g), s2⟩
  rw [Rounded.meanShown, hs, Res.ok_bind, z1, Res.ok_bind, if_neg hz, z2]
  congr 3
  have := hfl.exact (l.length : Int) (by rw [abs_of_nonneg (by omega)]; exact_mod_cast hn)
  simpa using this

/-- The mean shown is that of the values up to `(1 + 2⁻⁵³)ⁿ - 1` times the mean of their absolute values. -/
theorem C88_mean {temp : View (Dom τ)} {mem : Mem Rat} {l : List (Elem τ)} {g : Elem τ → Rat}
    (hfl : RoundsNearest fl) (h : ChunkValues temp mem l g) (h0 : l ≠ []) (hn : l.length ≤ 2 ^ 53) (hr : ∀ e ∈ l, fl (g e) = g e) :
    ∃ v, Rounded.meanShown fl temp mem = .ok v ∧
      |v - (l.map g).sum / l.length| ≤ ((1 + 1 / 2 ^ 53) ^ l.length - 1) * ((l.map (fun e => |g e|)).sum / l.length) := by
  obtain ⟨s, xs, h1, h2, h3⟩ := mean_combines hfl h h0 hn
  refine ⟨_, h1, ?_⟩
  have hs := (combines_sum hfl h3 (fun x hx => by
    obtain ⟨e, he, rfl⟩ := List.mem_map.1 (h2.mem_iff.1 hx); exact hr e he)).2.2
  rw [h2.sum_eq, h2.length_eq, (h2.map (fun x => |x|)).sum_eq, List.length_map, List.map_map] at hs
  simp only [Function.comp_def] at hs
  have habs : |(l.map g).sum| ≤ (l.map (fun e => |g e|)).sum := by
    clear h hr h2 hs h0 hn h1
    induction l with
    | nil => simp
    | cons a l ih => simp only [List.map_cons, List.sum_cons]; exact (abs_add_le _ _).trans (by linarith)
  obtain ⟨m, hm⟩ : ∃ m, l.length = m + 1 := ⟨l.length - 1, by have := List.length_pos_iff.2 h0; omega⟩
  rw [hm] at hs ⊢
  rw [Nat.add_sub_cancel] at hs
  have hN : (0 : Rat) < ((m + 1 : Nat) : Rat) := by positivity
  generalize ((m + 1 : Nat) : Rat) = N at hN ⊢
  generalize (l.map (fun e => |g e|)).sum = A at *
  generalize (l.map g).sum = G at *
  have hp : (1 : Rat) ≤ (1 + 1 / 2 ^ 53) ^ m := one_le_pow₀ (by norm_num)
  rw [pow_succ]
  generalize ((1 : Rat) + 1 / 2 ^ 53) ^ m = P at *
  have e1 := hfl.error (s / N)
  have e2 : |s / N - G / N| ≤ (P - 1) * A / N := by
    rw [← sub_div, abs_div, abs_of_pos hN]; gcongr
  have e3 : |s / N| ≤ P * A / N := by
    rw [abs_div, abs_of_pos hN]
    have : |s| ≤ P * A := by
      have := abs_add_le (s - G) G
      rw [sub_add_cancel] at this
      linarith
    gcongr
  have := abs_sub_le (fl (s / N)) (s / N) (G / N)
  calc _ ≤ |s / N| / 2 ^ 53 + (P - 1) * A / N := by linarith
    _ ≤ P * A / N / 2 ^ 53 + (P - 1) * A / N := by gcongr
    _ = _ := by ring

/-- ChunkValues between `lo` and `hi` have their mean there, up to `((1 + 2⁻⁵³)ⁿ - 1) V` where `V` bounds their absolute values. -/
theorem C88_between {temp : View (Dom τ)} {mem : Mem Rat} {l : List (Elem τ)} {g : Elem τ → Rat} {lo hi V : Rat}
    (hfl : RoundsNearest fl) (h : ChunkValues temp mem l g) (h0 : l ≠ []) (hn : l.length ≤ 2 ^ 53) (hr : ∀ e ∈ l, fl (g e) = g e)
    (hb : ∀ e ∈ l, lo ≤ g e ∧ g e ≤ hi) (hV : ∀ e ∈ l, |g e| ≤ V) :
    ∃ v, Rounded.meanShown fl temp mem = .ok v ∧
      lo - ((1 + 1 / 2 ^ 53) ^ l.length - 1) * V ≤ v ∧ v ≤ hi + ((1 + 1 / 2 ^ 53) ^ l.length - 1) * V := by
  obtain ⟨v, v1, v2⟩ := C88_mean hfl h h0 hn hr
  have hN : (0 : Rat) < (l.length : Rat) := by exact_mod_cast List.length_pos_iff.2 h0
  have key : ∀ (k : Elem τ → Rat) (a b : Rat), (∀ e ∈ l, a ≤ k e ∧ k e ≤ b) →
      a ≤ (l.map k).sum / l.length ∧ (l.map k).sum / l.length ≤ b := by
    intro k a b hk
    rw [le_div_iff₀ hN, div_le_iff₀ hN]
    clear hN v2 h hn hr hb hV h0
    induction l with
    | nil => simp
    | cons e l ih =>
      have h1 := hk e (by simp)
      have h2 := ih (fun e he => hk e (by simp [he]))
      simp only [List.map_cons, List.sum_cons, List.length_cons]
      push_cast
      constructor <;> linarith [h1.1, h1.2, h2.1, h2.2]
  have k1 := key g lo hi hb
  have k2 := (key (fun e => |g e|) 0 V (fun e he => ⟨abs_nonneg _, hV e he⟩)).2
  have hp : (0 : Rat) ≤ (1 + 1 / 2 ^ 53) ^ l.length - 1 := sub_nonneg.2 (one_le_pow₀ (by norm_num))
  have k3 := mul_le_mul_of_nonneg_left k2 hp
  obtain ⟨a, b⟩ := abs_le.1 v2
  exact ⟨v, v1, by linarith [k1.1], by linarith [k1.2]⟩

/-- The mean shown of values that are not negative is not negative. -/
theorem C88_nonneg {temp : View (Dom τ)} {mem : Mem Rat} {l : List (Elem τ)} {g : Elem τ → Rat}
    (hfl : RoundsNearest fl) (h : ChunkValues temp mem l g) (h0 : l ≠ []) (hn : l.length ≤ 2 ^ 53) (hg : ∀ e ∈ l, 0 ≤ g e) :
    ∃ v, Rounded.meanShown fl temp mem = .ok v ∧ 0 ≤ v := by
  obtain ⟨s, xs, h1, h2, h3⟩ := mean_combines hfl h h0 hn
  refine ⟨_, h1, ?_⟩
  have hx : ∀ x ∈ xs, 0 ≤ x := fun x hx => by
    obtain ⟨e, he, rfl⟩ := List.mem_map.1 (h2.mem_iff.1 hx); exact hg e he
  have hz : fl 0 = 0 := by simpa using hfl.exact 0 (by norm_num)
  have hs : 0 ≤ s := by
    clear h2 h1
    induction h3 with
    | unit => exact le_rfl
    | one x => exact hx x (by simp)
    | @join l m a b _ _ iha ihb =>
      have h1 := iha (fun x h => hx x (by simp [h]))
      have h2 := ihb (fun x h => hx x (by simp [h]))
      have := hfl.mono 0 (a + b) (by linarith)
      rwa [hz] at this
  have := hfl.mono 0 (s / l.length) (by positivity)
  rwa [hz] at this

/-- Nothing is shown for an empty domain: the sum is divided by zero. -/
theorem C88_empty {temp : View (Dom τ)} {mem : Mem Rat} {g : Elem τ → Rat} (h : ChunkValues temp mem [] g) :
    Rounded.meanShown fl temp mem = .ub := by
  have hg := grid_dom h.valid
  have hp : cart (axes temp.span.dom) = [] := List.eq_nil_iff_forall_not_mem.2
    (fun e he => by simpa using (h.elements e).2 ((mem_cart_axes h.valid e).1 he))
  obtain ⟨s, s1, -⟩ := serial_combines_on hg (Rounded.sum fl) 0 (fun e => View.get mem temp [e]) g (axes temp.span.dom) [] [] [] rfl
    trivial (fun e he => by rw [hp] at he; simp at he)
  have hs : transformReduce (Dom.support temp.span.dom) 0 (fun a b => .ok (Rounded.sum fl a b)) (fun e => View.get mem temp [e]) =
      .ok s := by
    simp only [transformReduce, hg.extents, Res.ok_bind, vals_lengths]
    rw [s1]; rfl
  obtain ⟨z, z1, z2⟩ := Dom.size_ok temp.span.dom h.valid
  rw [card_eq h.valid.1, ← length_cart, hp] at z2
  have hz : z = 0 := BitVec.eq_of_toNat_eq (by simpa using z2)
  rw [Rounded.meanShown, hs, Res.ok_bind, z1, Res.ok_bind, if_pos hz]

/-! ## A chunk of three points -/

/-- A chunk on three points of one dimension. -/
def threeView : View (Dom Char) := ⟨0, 0, .right, ⟨⟨0, MDSpan.layoutRight [3], 3⟩, [('x', (4, 7))]⟩⟩

/-- The mean shown of three times the number `0.1` is above it, by one unit in the last place: the mean is not between the smallest and
the largest value. -/
theorem C88_above : Rounded.meanShown round53 threeView [List.replicate 3 (round53 (1 / 10))] =
    .ok (round53 (1 / 10) + 1 / 2 ^ 56) := by decide +kernel

private theorem three_values (x y z : Rat) : ChunkValues threeView [[x, y, z]] [[('x', 4)], [('x', 5)], [('x', 6)]]
    (fun e => if idx 'x' e = 4 then x else if idx 'x' e = 5 then y else z) := by
  have hd : Valid threeView.span.dom := by
    refine ⟨by decide, ?_⟩
    intro q hq
    simp only [threeView, Tup.tags, List.map_cons, List.map_nil, List.mem_cons, List.not_mem_nil, or_false] at hq
    rcases hq with rfl; decide
  refine ⟨hd, by decide, ?_, ?_⟩
  · intro e
    rw [← mem_cart_axes hd]
    have : cart (axes threeView.span.dom) = [[('x', 4)], [('x', 5)], [('x', 6)]] := by decide
    rw [this]
  · intro e he
    simp only [List.mem_cons, List.not_mem_nil, or_false] at he
    rcases he with rfl | rfl | rfl <;> rfl

/-- The mean of `1`, `2` and `4`. -/
example : ∃ v, Rounded.meanShown round53 threeView [[1, 2, 4]] = .ok v ∧ |v - 7 / 3| ≤ 4 / 2 ^ 50 := by
  obtain ⟨v, h1, h2⟩ := C88_mean round53_nearest (three_values 1 2 4) (by decide) (by decide) (by decide +kernel)
  refine ⟨v, h1, ?_⟩
  have hs : ((([[('x', 4)], [('x', 5)], [('x', 6)]] : List (Elem Char)).map
    (fun e => if idx 'x' e = 4 then (1 : Rat) else if idx 'x' e = 5 then 2 else 4)).sum) /
      (([[('x', 4)], [('x', 5)], [('x', 6)]] : List (Elem Char)).length : Rat) = 7 / 3 := by decide +kernel
  rw [hs] at h2
  exact h2.trans (by decide +kernel)

end DDC.Props
