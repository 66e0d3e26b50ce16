import Verif.Lemmas.Enumerate

/-!
# C12  host for_each visits every point exactly once in lexicographic order

The functor is any state transformer.  Each theorem says that the loop is the
sequential run of the functor over one fixed list of elements, and characterises that
list: no repetition, exactly the contained elements, `size()` of them (when it does not
wrap), ordered lexicographically with the last dimension varying fastest.
-/

namespace DDC.Props

open Tup Spec

variable {τ : Type} [DecidableEq τ]

/-- The loop of `host_for_each`/`device_for_each` over `S` runs the functor on the
elements of `l`, in that order, each time with the state left by the previous call; an
exception of the functor terminates the program (the functions are `noexcept`). -/
def Visits (S : Support τ) (l : List (Elem τ)) : Prop :=
  ∀ (σ : Type) (f : Elem τ → σ → Res σ) (s : σ),
    Support.forEach S f s = Res.noexcept (l.foldlM (fun s e => f e s) s)

/-- Contiguous domains. -/
theorem C12_contiguous (d : Dom τ) (hd : Valid d) :
    ∃ l, Visits d.support l ∧ l.Nodup ∧ l.Pairwise Lex ∧
      (∀ e, e ∈ l ↔ tags e = tags d ∧ Dom.contains d [e] = .ok true) ∧
      l.length = card d ∧ ∃ s, Dom.size d = .ok s ∧ s.toNat = l.length % 2 ^ 64 := by
  have hlex := lex_axes d
  have hlen : (cart (axes d)).length = card d := by
    rw [length_cart, card]
    congr 1
    rw [axes, List.map_map]
    simp only [tags, List.map_map]
    refine List.map_congr_left ?_
    rintro ⟨t, b, e⟩ hm
    have hg := get_of_mem hd.1 hm
    simp only [Function.comp_apply, length_axis, len, lo_ok hg, hi_ok hg]
  obtain ⟨s, s1, s2⟩ := Dom.size_ok d hd
  refine ⟨cart (axes d), fun σ f s => Support.forEach_eq (grid_dom hd) f s, nodup_of_lex hlex, hlex, ?_, hlen,
    s, s1, by rw [hlen, s2]⟩
  exact mem_cart_axes hd

/-- Strided domains. -/
theorem C12_strided (d : SDom τ) (hd : SValid d) :
    ∃ l, Visits d.support l ∧ l.Nodup ∧ l.Pairwise Lex ∧
      (∀ e, e ∈ l ↔ tags e = tags d ∧ InGrid d e) ∧
      l.length = scard d ∧ ∃ s, SDom.size d = .ok s ∧ s.toNat = l.length % 2 ^ 64 := by
  have hlex := lex_saxes hd
  have hlen : (cart (saxes d)).length = scard d := by
    rw [length_cart, scard]
    congr 1
    rw [saxes, List.map_map]
    simp only [tags, List.map_map]
    refine List.map_congr_left ?_
    rintro ⟨t, b, n, s⟩ hm
    simp only [Function.comp_apply, length_progression, SDom.count_ok (get_of_mem hd.1 hm)]
  obtain ⟨s, s1, s2⟩ := SDom.size_ok d hd
  refine ⟨cart (saxes d), fun σ f s => Support.forEach_eq (grid_strided hd) f s, nodup_of_lex hlex, hlex, ?_, hlen,
    s, s1, by rw [hlen, s2]⟩
  exact mem_cart_saxes hd

/-- Sparse domains with strictly increasing indices. -/
theorem C12_sparse (d : SpDom τ) (hd : SpValid d) :
    ∃ l, Visits d.support l ∧ l.Nodup ∧ l.Pairwise Lex ∧
      (∀ e, e ∈ l ↔ tags e = tags d ∧ SpDom.contains d [e] = .ok true) ∧
      l.length = (d.map (fun p => p.2.length)).prod := by
  have hlex := lex_sparse hd
  refine ⟨cart d, fun σ f s => Support.forEach_eq
    (grid_sparse hd.1 (fun p hp => (hd.2 p.1 p.2 (get_of_mem hd.1 hp)).2)) f s,
    nodup_of_lex hlex, hlex, ?_, length_cart d⟩
  exact mem_cart_sparse hd

/-- Over a sparse domain whose lists are not sorted (or repeat indices) the functor is
still run over the product of the lists, in the order in which they are stored. -/
theorem C12_sparse_unsorted (d : SpDom τ) (hnd : (tags d).Nodup) (hl : ∀ p ∈ d, p.2.length < 2 ^ 63) :
    Visits d.support (cart d) :=
  fun _ f s => Support.forEach_eq (grid_sparse hnd hl) f s

/-- Rank 0: the functor is called exactly once, with the empty element. -/
theorem C12_rank0 (σ : Type) (f : Elem τ → σ → Res σ) (s : σ) :
    Support.forEach (Dom.support ([] : Dom τ)) f s = Res.noexcept (f [] s) ∧
    Support.forEach (SDom.support ([] : SDom τ)) f s = Res.noexcept (f [] s) ∧
    Support.forEach (SpDom.support ([] : SpDom τ)) f s = Res.noexcept (f [] s) := by
  have hb : ∀ x : Res σ, (x >>= fun a => Res.ok a) = x := Support.bind_ok'
  refine ⟨?_, ?_, ?_⟩
  · rw [Support.forEach_eq (grid_dom (d := ([] : Dom τ)) ⟨by simp, by simp⟩)]; simp [axes, cart, hb]
  · rw [Support.forEach_eq (grid_strided (d := ([] : SDom τ)) ⟨by simp, by simp⟩)]; simp [saxes, cart, hb]
  · rw [Support.forEach_eq (grid_sparse (d := ([] : SpDom τ)) (by simp) (by simp))]; simp [cart, hb]

/-! Non-vacuity: recording the visited elements. -/
example : cart (axes ([('x', (1, 3)), ('y', (4, 6))] : Dom Char))
    = [[('x', 1), ('y', 4)], [('x', 1), ('y', 5)], [('x', 2), ('y', 4)], [('x', 2), ('y', 5)]] := by decide
example : Valid ([('x', (1, 3)), ('y', (4, 6))] : Dom Char) := by
  refine ⟨by decide, ?_⟩
  intro q hq
  simp only [tags, List.map_cons, List.map_nil, List.mem_cons, List.not_mem_nil, or_false] at hq
  rcases hq with rfl | rfl <;> decide

end DDC.Props
