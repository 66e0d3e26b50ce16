import Verif.Lemmas.BlockAxes
import Verif.Lemmas.Distribute
import Mathlib.Data.List.Nodup

/-!
# C20: block decomposition
-/

namespace DDC.Props

open DDC DDC.Tup DDC.Spec

variable {τ : Type} [DecidableEq τ]

omit [DecidableEq τ] in
theorem mem_products {cs : List (τ × List (List U64))} {ax : List (τ × List U64)} (h : ax ∈ products cs) :
    List.Forall₂ (fun a c => a.1 = c.1 ∧ a.2 ∈ c.2) ax cs := by
  induction cs generalizing ax with
  | nil => simp only [products, List.mem_singleton] at h; subst h; exact .nil
  | cons c cs ih =>
    obtain ⟨q, ls⟩ := c
    simp only [products, List.mem_flatMap, List.mem_map] at h
    obtain ⟨l, hl, ax', h', rfl⟩ := h
    exact .cons ⟨rfl, hl⟩ (ih h')

theorem mem_products_get {ax0 ax : List (τ × List U64)} (f : τ → List U64 → List (List U64))
    (h : ax ∈ products (ax0.map (fun a => (a.1, f a.1 a.2)))) :
    tags ax = tags ax0 ∧ ∀ q l, get q ax0 = .ok l → ∃ l', get q ax = .ok l' ∧ l' ∈ f q l := by
  have := mem_products h
  clear h
  induction ax0 generalizing ax with
  | nil => cases this; exact ⟨rfl, fun q l h => by cases h⟩
  | cons a ax0 ih =>
    obtain ⟨t, l0⟩ := a
    cases this with
    | cons h1 h2 =>
      rename_i a1 ax1
      obtain ⟨t1, l1⟩ := a1
      simp only at h1
      obtain ⟨rfl, h1⟩ := h1
      obtain ⟨i1, i2⟩ := ih h2
      refine ⟨by simp [i1], ?_⟩
      intro q l hl
      rw [get_cons] at hl ⊢
      split at hl
      · rename_i hq
        subst hq
        rw [← Res.ok.inj hl]
        exact ⟨l1, if_pos rfl, h1⟩
      · rename_i hq
        rw [if_neg hq]
        exact i2 q l hl

theorem pieces_mem_length {n nb : Nat} (h0 : 0 < nb) {l l' : List U64} (hl : l.length = n)
    (h : l' ∈ pieces (balanced n nb) l) : l'.length = n / nb ∨ l'.length = n / nb + 1 := by
  have hm : l'.length ∈ (pieces (balanced n nb) l).map List.length := List.mem_map_of_mem h
  rw [pieces_lengths _ _ (by rw [sum_balanced h0, hl])] at hm
  simp only [balanced, List.mem_map, List.mem_range] at hm
  obtain ⟨i, _, hi⟩ := hm
  rw [← hi]
  split <;> simp

/-- The blocks of a domain with `nbOf q` blocks along `q`. -/
theorem blocks_core {D : Type} {ops : BlockOps τ D} {axesOf : D → List (τ × List U64)} {V : D → Prop}
    (hops : BlockAxes ops axesOf V) {d : D} (hd : V d) {nb : Vect τ} (ht : tags nb = ops.tags d)
    (hpos : ∀ q ∈ tags nb, 1 ≤ disp q nb) :
    ∃ Bs : List D,
      (∀ (σ : Type) (f : D → σ → Res σ) (s : σ),
        Block.forEach ops d nb f s = Res.noexcept (Bs.foldlM (fun s b => f b s) s)) ∧
      (∀ B ∈ Bs, V B ∧ tags (axesOf B) = tags (axesOf d) ∧
        ∀ q l, get q (axesOf d) = .ok l → ∃ l', get q (axesOf B) = .ok l' ∧
          (l'.length = l.length / (disp q nb).toNat ∨ l'.length = l.length / (disp q nb).toNat + 1)) ∧
      Bs.length = ((tags nb).map (fun q => (disp q nb).toNat)).prod ∧
      (Bs.flatMap (fun B => cart (axesOf B))).Perm (cart (axesOf d)) := by
  have htd := hops.tags d hd
  have hnd := hops.nodup d hd
  have hb : ∀ a ∈ axesOf d, 0 < (disp a.1 nb).toNat ∧ (disp a.1 nb).toNat < 2 ^ 63 := by
    intro a ha
    have hq : a.1 ∈ tags nb := by rw [ht, htd]; exact List.mem_map_of_mem ha
    have h1 := hpos a.1 hq
    obtain ⟨x, hx⟩ := get_ok_iff_mem_tags.2 hq
    rw [disp_ok hx] at h1 ⊢
    have := x.toInt_lt
    omega
  obtain ⟨Bs, h1, h2⟩ := Block.forEachRec_eq hops hd (fun q => (disp q nb).toNat) (axesOf d) [] [] [] rfl rfl hb .nil
  simp only [List.nil_append, List.map_id'] at h1
  have hmap : (axesOf d).map (fun a => (a.1, (BitVec.ofNat 64 (disp a.1 nb).toNat : I64))) = (ops.tags d).zip nb.vals := by
    rw [← ht]
    have hz : (tags nb).zip nb.vals = nb := by
      simp only [tags, vals]; rw [List.zip_map']; simp
    rw [hz]
    have ht2 : tags ((axesOf d).map (fun a => (a.1, (BitVec.ofNat 64 (disp a.1 nb).toNat : I64)))) = tags nb := by
      rw [ht, htd]; simp [tags, Function.comp_def]
    refine ext_get ht2 (by rw [ht2, ht, htd]; exact hnd) ?_
    intro q hq
    rw [ht2] at hq
    obtain ⟨x, hx⟩ := get_ok_iff_mem_tags.2 hq
    have h1 := hpos q hq
    have hqa : q ∈ tags (axesOf d) := by rw [← htd, ← ht]; exact hq
    obtain ⟨l, hl⟩ := get_ok_iff_mem_tags.2 hqa
    have hm := get_mem hl
    have hm2 : (q, (BitVec.ofNat 64 (disp q nb).toNat : I64)) ∈
        (axesOf d).map (fun a => (a.1, (BitVec.ofNat 64 (disp a.1 nb).toNat : I64))) := by
      exact List.mem_map.2 ⟨(q, l), hm, rfl⟩
    rw [get_of_mem (by rw [ht2, ht, htd]; exact hnd) hm2, hx, disp_ok hx]
    rw [disp_ok hx] at h1
    congr 1
    apply BitVec.eq_of_toInt_eq
    have := x.toInt_lt
    rw [Support.toInt_ofNat_small (by omega)]; omega
  refine ⟨Bs, ?_, ?_, ?_, ?_⟩
  · intro σ f s
    rw [Block.forEach, ← hmap, h2 σ f s]
  · intro B hB
    obtain ⟨ax, hax, hv, rfl⟩ : ∃ ax ∈ products ((axesOf d).map (fun a =>
        (a.1, pieces (balanced a.2.length (disp a.1 nb).toNat) a.2))), V B ∧ axesOf B = ax := by
      obtain ⟨i, hi, rfl⟩ := List.getElem_of_mem hB
      have hi2 : i < (products ((axesOf d).map (fun a =>
        (a.1, pieces (balanced a.2.length (disp a.1 nb).toNat) a.2)))).length := by rw [← h1.length_eq]; exact hi
      exact ⟨_, List.getElem_mem hi2, List.Forall₂.get h1 hi hi2⟩
    obtain ⟨m1, m2⟩ := mem_products_get (fun q l => pieces (balanced l.length (disp q nb).toNat) l) hax
    refine ⟨hv, m1, ?_⟩
    intro q l hl
    obtain ⟨l', l1, l2⟩ := m2 q l hl
    exact ⟨l', l1, pieces_mem_length (hb (q, l) (get_mem hl)).1 rfl l2⟩
  · rw [h1.length_eq, Block.length_products, List.map_map, ht, htd]
    congr 1
    simp only [tags, List.map_map]
    refine List.map_congr_left ?_
    intro a ha
    obtain ⟨hp, _⟩ := hb a ha
    simp only [Function.comp]
    have := congrArg List.length (pieces_lengths (balanced a.2.length (disp a.1 nb).toNat) a.2
      (by rw [sum_balanced hp]))
    rw [List.length_map] at this
    rw [this, balanced, List.length_map, List.length_range]
  · have hflat : Bs.flatMap (fun B => cart (axesOf B)) = (products ((axesOf d).map (fun a =>
        (a.1, pieces (balanced a.2.length (disp a.1 nb).toNat) a.2)))).flatMap cart := by
      clear h2
      generalize products _ = P at h1
      induction h1 with
      | nil => rfl
      | cons h _ ih => rw [List.flatMap_cons, List.flatMap_cons, ih, h.2]
    rw [hflat]
    refine (Block.products_perm _).trans ?_
    rw [List.map_map]
    have : (axesOf d).map ((fun a : τ × List (List U64) => (a.1, a.2.flatten)) ∘ (fun a =>
        (a.1, pieces (balanced a.2.length (disp a.1 nb).toNat) a.2))) = axesOf d := by
      conv => rhs; rw [← List.map_id (axesOf d)]
      refine List.map_congr_left ?_
      intro a ha
      simp only [Function.comp, id]
      rw [pieces_flatten _ _ (sum_balanced (hb a ha).1)]
    rw [this]

theorem mem_cart_box {d : Dom τ} (hd : Valid d) (e : Elem τ) : e ∈ cart (axes d) ↔ tags e = tags d ∧ InBox d e := by
  rw [mem_cart_axes hd]
  refine and_congr_right fun he => ?_
  obtain ⟨c, g1, g2⟩ := Dom.contains_one hd.1 (e := e) (by rw [SameTags, he])
  rw [g1, ← g2]
  simp

/-- What is claimed of the blocks `Bs` of `d`: `In B e` is membership, `n q B` the extent. -/
structure Decomposition {D : Type} (Bs : List D) (d : D) (tagsOf : D → List τ) (In : D → Elem τ → Prop) (n : τ → D → Int)
    (nb : Vect τ) : Prop where
  /-- every block has the dimensions of the domain -/
  tags : ∀ B ∈ Bs, tagsOf B = tagsOf d
  /-- as many blocks as requested -/
  count : (Bs.length : Int) = ((tagsOf d).map (fun q => disp q nb)).prod
  /-- the extents of the blocks are the quotient of the extent of the domain, or one more -/
  balanced : ∀ B ∈ Bs, ∀ q ∈ tagsOf d, n q B = n q d / disp q nb ∨ n q B = n q d / disp q nb + 1
  /-- the union is the domain -/
  cover : ∀ e : Elem τ, Tup.tags e = tagsOf d → (In d e ↔ ∃ B ∈ Bs, In B e)
  /-- the blocks are pairwise disjoint -/
  disjoint : Bs.Pairwise (fun B C => ∀ e : Elem τ, Tup.tags e = tagsOf d → ¬ (In B e ∧ In C e))

theorem decomposition_of {D : Type} {axesOf : D → List (τ × List U64)} {tagsOf : D → List τ}
    {In : D → Elem τ → Prop} {n : τ → D → Int} {V : D → Prop}
    (htags : ∀ d, V d → tagsOf d = Tup.tags (axesOf d))
    (hIn : ∀ d, V d → ∀ e, e ∈ cart (axesOf d) ↔ Tup.tags e = tagsOf d ∧ In d e)
    (hnod : ∀ d, V d → (cart (axesOf d)).Nodup)
    (hn : ∀ d q l, V d → get q (axesOf d) = .ok l → n q d = l.length)
    {d : D} (hd : V d) {nb : Vect τ} (ht : tags nb = tagsOf d) (hpos : ∀ q ∈ tags nb, 1 ≤ disp q nb) {Bs : List D}
    (h1 : ∀ B ∈ Bs, V B ∧ tags (axesOf B) = tags (axesOf d) ∧
        ∀ q l, get q (axesOf d) = .ok l → ∃ l', get q (axesOf B) = .ok l' ∧
          (l'.length = l.length / (disp q nb).toNat ∨ l'.length = l.length / (disp q nb).toNat + 1))
    (h2 : Bs.length = ((tags nb).map (fun q => (disp q nb).toNat)).prod)
    (h3 : (Bs.flatMap (fun B => cart (axesOf B))).Perm (cart (axesOf d))) :
    Decomposition Bs d tagsOf In n nb := by
  have htB : ∀ B ∈ Bs, tagsOf B = tagsOf d := by
    intro B hB
    obtain ⟨b1, b2, _⟩ := h1 B hB
    rw [htags B b1, b2, htags d hd]
  refine ⟨htB, ?_, ?_, ?_, ?_⟩
  · rw [h2, ← ht]
    have : ∀ l : List τ, (∀ q ∈ l, 1 ≤ disp q nb) →
        (((l.map (fun q => (disp q nb).toNat)).prod : Nat) : Int) = (l.map (fun q => disp q nb)).prod := by
      intro l hl
      induction l with
      | nil => rfl
      | cons q l ih =>
        simp only [List.map_cons, List.prod_cons]
        rw [← ih (fun q' hq' => hl q' (by simp [hq']))]
        have := hl q (by simp)
        push_cast
        rw [show ((disp q nb).toNat : Int) = disp q nb by omega]
    exact this _ hpos
  · intro B hB q hq
    obtain ⟨b1, b2, b3⟩ := h1 B hB
    have hp := hpos q (by rw [ht]; exact hq)
    obtain ⟨l, hl⟩ := get_ok_iff_mem_tags.2 (show q ∈ tags (axesOf d) by rw [← htags d hd]; exact hq)
    obtain ⟨l', l1, l2⟩ := b3 q l hl
    rw [hn B q l' b1 l1, hn d q l hd hl]
    have hdn : disp q nb = ((disp q nb).toNat : Int) := by omega
    rw [hdn, ← Int.natCast_ediv]
    rcases l2 with h | h <;> rw [h] <;> simp
  · intro e he
    have m1 := hIn d hd e
    have m2 := h3.mem_iff (a := e)
    constructor
    · intro h
      obtain ⟨B, hB, hm⟩ := List.mem_flatMap.1 (m2.2 (m1.2 ⟨he, h⟩))
      exact ⟨B, hB, ((hIn B (h1 B hB).1 e).1 hm).2⟩
    · rintro ⟨B, hB, hm⟩
      refine (m1.1 (m2.1 (List.mem_flatMap.2 ⟨B, hB, ?_⟩))).2
      exact (hIn B (h1 B hB).1 e).2 ⟨by rw [he, htB B hB], hm⟩
  · have hnd := (h3.nodup_iff).2 (hnod d hd)
    rw [List.nodup_flatMap] at hnd
    refine hnd.2.imp_of_mem ?_
    intro B C hB hC hdis e he ⟨i1, i2⟩
    exact hdis ((hIn B (h1 B hB).1 e).2 ⟨by rw [he, htB B hB], i1⟩)
      ((hIn C (h1 C hC).1 e).2 ⟨by rw [he, htB C hC], i2⟩)

/-- **C20** (contiguous domains, counts per dimension): `host_for_each_block` calls the functor once
per block, in a fixed order, on blocks that partition the domain in a balanced way. -/
theorem C20_blocks {d : Dom τ} (hd : Valid d) {nb : Vect τ} (ht : tags nb = tags d)
    (hpos : ∀ q ∈ tags d, 1 ≤ disp q nb) :
    ∃ Bs : List (Dom τ),
      (∀ (σ : Type) (f : Dom τ → σ → Res σ) (s : σ),
        Block.forEach Dom.blockOps d nb f s = Res.noexcept (Bs.foldlM (fun s b => f b s) s)) ∧
      (∀ B ∈ Bs, Valid B) ∧ Decomposition Bs d tags InBox (fun q B => (len q B : Int)) nb := by
  obtain ⟨Bs, h1, h2, h3, h4⟩ := blocks_core blockAxes_dom hd (nb := nb) ht (by rw [ht]; exact hpos)
  refine ⟨Bs, h1, fun B hB => (h2 B hB).1, ?_⟩
  refine decomposition_of (V := Valid) (fun d _ => (tags_axes d).symm) (fun d h e => mem_cart_box h e)
    (fun d _ => nodup_of_lex (lex_axes d)) ?_ hd ht (by rw [ht]; exact hpos) h2 h3 h4
  intro d q l hv hl
  have hq : q ∈ tags d := by rw [← show tags (axes d) = tags d from tags_axes d]; exact mem_tags_of_get hl
  obtain ⟨⟨b, e⟩, hb⟩ := get_ok_iff_mem_tags.2 hq
  rw [get_axes hb] at hl
  rw [← Res.ok.inj hl, length_axis, len, lo_ok hb, hi_ok hb]

/-- **C20** (strided domains, counts per dimension). -/
theorem C20_blocks_strided {d : SDom τ} (hd : SValid d) {nb : Vect τ} (ht : tags nb = tags d)
    (hpos : ∀ q ∈ tags d, 1 ≤ disp q nb) :
    ∃ Bs : List (SDom τ),
      (∀ (σ : Type) (f : SDom τ → σ → Res σ) (s : σ),
        Block.forEach SDom.blockOps d nb f s = Res.noexcept (Bs.foldlM (fun s b => f b s) s)) ∧
      (∀ B ∈ Bs, SValid B) ∧ Decomposition Bs d tags InGrid count nb := by
  obtain ⟨Bs, h1, h2, h3, h4⟩ := blocks_core blockAxes_strided hd (nb := nb) ht (by rw [ht]; exact hpos)
  refine ⟨Bs, h1, fun B hB => (h2 B hB).1, ?_⟩
  refine decomposition_of (V := SValid) (fun d _ => (tags_saxes d).symm) (fun d h e => mem_cart_saxes h e)
    (fun d h => nodup_of_lex (lex_saxes h)) ?_ hd ht (by rw [ht]; exact hpos) h2 h3 h4
  intro d q l hv hl
  have hq : q ∈ tags d := by rw [← show tags (saxes d) = tags d from tags_saxes d]; exact mem_tags_of_get hl
  obtain ⟨⟨b, n, s⟩, hb⟩ := get_ok_iff_mem_tags.2 hq
  have := SDom.svalid_get hv hb
  rw [get_saxes hb] at hl
  rw [← Res.ok.inj hl, length_progression, SDom.count_ok hb]; omega

/-- **C20** (distribution of a total): for a power of two, counts are produced exactly when the
sizes rounded down to powers of two can hold them, otherwise the function throws; the product is
the requested total, a count exceeds the size only when the size is zero (then it is one), and
a dimension gets less than it could hold only if all later ones get one block. -/
theorem C20_distribute {ns : List Nat} (hs : ∀ n ∈ ns, n < 2 ^ 62) {k : Nat} (hk : k < 64) :
    (2 ^ k ≤ (ns.map (fun n => 2 ^ n.log2)).prod →
      ∃ ps : List Nat, Block.distribute (BitVec.ofNat 64 (2 ^ k)) (ns.map (BitVec.ofNat 64)) = .ok (ps.map (BitVec.ofNat 64)) ∧
        ps.prod = 2 ^ k ∧ List.Forall₂ (fun p n => 1 ≤ p ∧ p ≤ max 1 n) ps ns ∧
        ∀ (i j p n p' : Nat), i < j → ps[i]? = some p → ns[i]? = some n → 2 * p ≤ n → ps[j]? = some p' → p' = 1) ∧
    (¬ 2 ^ k ≤ (ns.map (fun n => 2 ^ n.log2)).prod →
      Block.distribute (BitVec.ofNat 64 (2 ^ k)) (ns.map (BitVec.ofNat 64)) = .throw) := by
  have hprod : ∀ ns : List Nat, (ns.map (fun n => 2 ^ n.log2)).prod = 2 ^ (ns.map Nat.log2).sum := by
    intro ns
    induction ns with
    | nil => rfl
    | cons n ns ih => simp [ih, Nat.pow_add]
  have hiff : 2 ^ k ≤ (ns.map (fun n => 2 ^ n.log2)).prod ↔ k ≤ (ns.map Nat.log2).sum := by
    rw [hprod]; exact Nat.pow_le_pow_iff_right (by omega)
  rw [hiff]
  have heq := Block.distribute_eq hs hk
  refine ⟨?_, fun h => by rw [heq, if_neg h]⟩
  intro h
  refine ⟨(greedy k ns).map (fun i => 2 ^ i), by rw [heq, if_pos h, List.map_map]; rfl, ?_, ?_, ?_⟩
  · have : ∀ l : List Nat, (l.map (fun i => 2 ^ i)).prod = 2 ^ l.sum := by
      intro l
      induction l with
      | nil => rfl
      | cons n ns ih => simp [ih, Nat.pow_add]
    rw [this, Block.greedy_sum, Nat.min_eq_left h]
  · clear hs hk heq hiff h hprod
    induction ns generalizing k with
    | nil => exact .nil
    | cons n ns ih =>
      refine .cons ⟨Nat.one_le_two_pow, ?_⟩ ih
      by_cases h0 : n = 0
      · subst h0; simp
      · have : 2 ^ min k n.log2 ≤ 2 ^ n.log2 := Nat.pow_le_pow_right (by omega) (Nat.min_le_right _ _)
        have := Nat.log2_self_le h0
        show 2 ^ min k n.log2 ≤ _
        omega
  · clear hs hk heq hiff h hprod
    induction ns generalizing k with
    | nil => intro i j p n p' _ hi; simp [greedy] at hi
    | cons n ns ih =>
      intro i j p m p' hij hi hm hp hj
      cases j with
      | zero => omega
      | succ j =>
        simp only [greedy, List.map_cons, List.getElem?_cons_succ] at hj
        cases i with
        | succ i =>
          simp only [greedy, List.map_cons, List.getElem?_cons_succ] at hi hm
          exact ih i j p m p' (by omega) hi hm hp hj
        | zero =>
          simp only [greedy, List.map_cons, List.getElem?_cons_zero, Option.some.injEq] at hi hm
          subst hi hm
          have hk : k - n.log2 = 0 := by
            by_contra hc
            rw [Nat.min_eq_right (by omega)] at hp
            have := Nat.lt_log2_self (n := n)
            rw [Nat.pow_succ] at this
            omega
          rw [hk] at hj
          have hz : ∀ l : List Nat, ∀ x ∈ greedy 0 l, x = 0 := by
            intro l
            induction l with
            | nil => intro x hx; simp [greedy] at hx
            | cons a l ih => 
              intro x hx
              simp only [greedy, Nat.zero_min, Nat.zero_sub, List.mem_cons] at hx
              rcases hx with rfl | hx
              · rfl
              · exact ih x hx
          obtain ⟨x, hx, rfl⟩ := List.mem_map.1 (List.mem_of_getElem? hj)
          rw [hz _ x hx]; rfl

/-- **C20** (totals that are not powers of two are refused). -/
theorem C20_not_power {nb : U64} (h : ∀ k, nb.toNat ≠ 2 ^ k) (sizes : List I64) : Block.distribute nb sizes = .throw := by
  rw [Block.distribute, if_neg]
  intro hc
  obtain ⟨k, _, hk⟩ := Block.isPowerOf2_iff.1 hc
  exact h k hk

/-- The counts chosen for a domain. -/
theorem total_core {D : Type} {ops : BlockOps τ D} {axesOf : D → List (τ × List U64)} {V : D → Prop}
    (hops : BlockAxes ops axesOf V) {d : D} (hd : V d) (hs : ∀ a ∈ axesOf d, a.2.length < 2 ^ 62) (nb : U64) :
    (∀ (σ : Type) (f : D → σ → Res σ) (s : σ), Block.forEachTotal ops d nb f s = .abort) ∨
    ∃ v : Vect τ, tags v = ops.tags d ∧ ((tags v).map (fun q => disp q v)).prod = nb.toNat ∧
      (∀ q l, get q (axesOf d) = .ok l → 1 ≤ disp q v ∧ disp q v ≤ max 1 l.length) ∧
      ∀ (σ : Type) (f : D → σ → Res σ) (s : σ), Block.forEachTotal ops d nb f s = Block.forEach ops d v f s := by
  have htd := hops.tags d hd
  have hnd := hops.nodup d hd
  have hvals : Tup.vals ((axesOf d).map (fun a => (a.1, (BitVec.ofNat 64 a.2.length : I64))))
      = ((axesOf d).map (fun a => a.2.length)).map (BitVec.ofNat 64) := by
    simp [vals, Function.comp_def]
  have hthrow : Block.distribute nb (((axesOf d).map (fun a => a.2.length)).map (BitVec.ofNat 64)) = .throw →
      ∀ (σ : Type) (f : D → σ → Res σ) (s : σ), Block.forEachTotal ops d nb f s = .abort := by
    intro h σ f s
    simp only [Block.forEachTotal, hops.extents d hd, Res.ok_bind, hvals, h]
    rfl
  by_cases hp : ∃ k, nb.toNat = 2 ^ k
  · obtain ⟨k, hk⟩ := hp
    have hk64 : k < 64 := by
      have := nb.isLt
      rw [hk] at this
      exact (Nat.pow_lt_pow_iff_right (by omega)).1 this
    have hnb : nb = BitVec.ofNat 64 (2 ^ k) := by
      apply BitVec.eq_of_toNat_eq; rw [Block.toNat_ofNat_pow hk64, hk]
    obtain ⟨c1, c2⟩ := C20_distribute (ns := (axesOf d).map (fun a => a.2.length))
      (by intro n hn; obtain ⟨a, ha, rfl⟩ := List.mem_map.1 hn; exact hs a ha) hk64
    rw [← hnb] at c1 c2
    by_cases hc : 2 ^ k ≤ (((axesOf d).map (fun a => a.2.length)).map (fun n => 2 ^ n.log2)).prod
    · obtain ⟨ps, p1, p2, p3, _⟩ := c1 hc
      right
      rw [List.forall₂_map_right_iff] at p3
      have hlen : ps.length = (axesOf d).length := p3.length_eq
      have ht : tags ((tags (axesOf d)).zip (ps.map (BitVec.ofNat 64 : Nat → I64))) = tags (axesOf d) := by
        simp only [tags]
        rw [List.map_fst_zip]; simp [hlen]
      have hget : ∀ i (hi : i < (axesOf d).length), disp ((axesOf d)[i]).1 ((tags (axesOf d)).zip (ps.map (BitVec.ofNat 64 : Nat → I64)))
          = ps[i]'(by omega) := by
        intro i hi
        have hb := (List.Forall₂.get p3 (by omega : i < ps.length) hi)
        simp only [List.get_eq_getElem] at hb
        have hsz := hs _ (List.getElem_mem hi)
        have hm : (((axesOf d)[i]).1, (BitVec.ofNat 64 (ps[i]'(by omega)) : I64)) ∈
            (tags (axesOf d)).zip (ps.map (BitVec.ofNat 64 : Nat → I64)) := by
          have hi2 : i < ((tags (axesOf d)).zip (ps.map (BitVec.ofNat 64 : Nat → I64))).length := by
            simp [tags, hlen, hi]
          have := List.getElem_mem hi2
          simpa [List.getElem_zip, tags] using this
        have := get_of_mem (by rw [ht]; exact hnd) hm
        rw [disp_ok this, Support.toInt_ofNat_small (by omega)]
      refine ⟨(tags (axesOf d)).zip (ps.map (BitVec.ofNat 64 : Nat → I64)), by rw [ht, htd], ?_, ?_, ?_⟩
      · have e : (tags (axesOf d)).map (fun q => disp q ((tags (axesOf d)).zip (ps.map (BitVec.ofNat 64 : Nat → I64))))
            = ps.map (fun p : Nat => (p : Int)) := by
          refine List.ext_getElem (by simp [tags, hlen]) ?_
          intro i h1 h2
          simp only [List.length_map] at h2
          rw [List.getElem_map, List.getElem_map]
          rw [← hget i (by omega)]
          simp [tags]
        rw [ht, e, hk, ← p2]
        have hcast : ∀ l : List Nat, (l.map (fun p : Nat => (p : Int))).prod = ((l.prod : Nat) : Int) := by
          intro l
          induction l with
          | nil => rfl
          | cons a l ih => simp [ih]
        exact hcast ps
      · intro q l hl
        obtain ⟨i, hi, he⟩ := List.getElem_of_mem (get_mem hl)
        have hb := (List.Forall₂.get p3 (by omega : i < ps.length) hi)
        have hg := hget i hi
        simp only [List.get_eq_getElem] at hb
        rw [he] at hb hg
        simp only at hb hg
        rw [hg]; omega
      · intro σ f s
        simp only [Block.forEachTotal, hops.extents d hd, Res.ok_bind, hvals, p1, htd]
        rw [Block.forEach]
        cases Block.forEachRec ops d f _ [] s <;> rfl
    · exact .inl (hthrow (c2 hc))
  · exact .inl (hthrow (C20_not_power (fun k hk => hp ⟨k, hk⟩) _))

/-- **C20** (total number of blocks, contiguous domains): either the program terminates, or the
functor is called on a decomposition with the requested number of blocks, no dimension being
divided in more blocks than it has points unless it is empty. -/
theorem C20_total_partial {d : Dom τ} (hd : Valid d) (hs : ∀ q ∈ tags d, len q d < 2 ^ 62) (nb : U64) :
    (∀ (σ : Type) (f : Dom τ → σ → Res σ) (s : σ), Block.forEachTotal Dom.blockOps d nb f s = .abort) ∨
    ∃ (v : Vect τ) (Bs : List (Dom τ)), tags v = tags d ∧
      (∀ q ∈ tags d, 1 ≤ disp q v ∧ disp q v ≤ max 1 (len q d)) ∧
      Bs.length = nb.toNat ∧ (∀ B ∈ Bs, Valid B) ∧ Decomposition Bs d tags InBox (fun q B => (len q B : Int)) v ∧
      ∀ (σ : Type) (f : Dom τ → σ → Res σ) (s : σ),
        Block.forEachTotal Dom.blockOps d nb f s = Res.noexcept (Bs.foldlM (fun s b => f b s) s) := by
  rcases total_core blockAxes_dom hd (by
      rintro ⟨q, l⟩ ha
      obtain ⟨⟨t, b, e⟩, hm, he⟩ := List.mem_map.1 ha
      have hg := get_of_mem hd.1 hm
      have := hs t (mem_tags_of_get hg)
      rw [len, lo_ok hg, hi_ok hg] at this
      simp only [Prod.mk.injEq] at he
      rw [← he.2, length_axis]; exact this) nb with h | ⟨v, h1, h2, h3, h4⟩
  · exact .inl h
  · right
    have hle : ∀ q ∈ tags d, 1 ≤ disp q v ∧ disp q v ≤ max 1 (len q d) := by
      intro q hq
      obtain ⟨⟨b, e⟩, hb⟩ := get_ok_iff_mem_tags.2 hq
      have := h3 q _ (get_axes hb)
      rw [length_axis] at this
      rw [len, lo_ok hb, hi_ok hb]; exact this
    obtain ⟨Bs, b1, b2, b3⟩ := C20_blocks hd h1 (fun q hq => (hle q hq).1)
    refine ⟨v, Bs, h1, hle, ?_, b2, b3, ?_⟩
    · have := b3.count
      rw [show tags d = tags v from h1.symm, h2] at this
      exact_mod_cast this
    · intro σ f s; rw [h4, b1]

/-- **C20** (total number of blocks, strided domains). -/
theorem C20_total_strided_partial {d : SDom τ} (hd : SValid d) (hs : ∀ q ∈ tags d, count q d < 2 ^ 62) (nb : U64) :
    (∀ (σ : Type) (f : SDom τ → σ → Res σ) (s : σ), Block.forEachTotal SDom.blockOps d nb f s = .abort) ∨
    ∃ (v : Vect τ) (Bs : List (SDom τ)), tags v = tags d ∧
      (∀ q ∈ tags d, 1 ≤ disp q v ∧ disp q v ≤ max 1 (count q d)) ∧
      Bs.length = nb.toNat ∧ (∀ B ∈ Bs, SValid B) ∧ Decomposition Bs d tags InGrid count v ∧
      ∀ (σ : Type) (f : SDom τ → σ → Res σ) (s : σ),
        Block.forEachTotal SDom.blockOps d nb f s = Res.noexcept (Bs.foldlM (fun s b => f b s) s) := by
  rcases total_core blockAxes_strided hd (by
      rintro ⟨q, l⟩ ha
      obtain ⟨⟨t, b, n, s⟩, hm, he⟩ := List.mem_map.1 ha
      have hg := get_of_mem hd.1 hm
      have := hs t (mem_tags_of_get hg)
      rw [SDom.count_ok hg] at this
      simp only [Prod.mk.injEq] at he
      rw [← he.2, length_progression]; omega) nb with h | ⟨v, h1, h2, h3, h4⟩
  · exact .inl h
  · right
    have hle : ∀ q ∈ tags d, 1 ≤ disp q v ∧ disp q v ≤ max 1 (count q d) := by
      intro q hq
      obtain ⟨⟨b, n, s⟩, hb⟩ := get_ok_iff_mem_tags.2 hq
      have := h3 q _ (get_saxes hb)
      have hv := SDom.svalid_get hd hb
      rw [length_progression] at this
      rw [SDom.count_ok hb]; omega
    obtain ⟨Bs, b1, b2, b3⟩ := C20_blocks_strided hd h1 (fun q hq => (hle q hq).1)
    refine ⟨v, Bs, h1, hle, ?_, b2, b3, ?_⟩
    · have := b3.count
      rw [show tags d = tags v from h1.symm, h2] at this
      exact_mod_cast this
    · intro σ f s; rw [h4, b1]

/-- Code disagrees with the claim: the version with a total number of blocks is `noexcept`, so
the exception documented for unsuitable totals ends the program instead. -/
theorem C20_total_terminates {d : Dom τ} (nb : U64) (h : ∀ k, nb.toNat ≠ 2 ^ k) {σ : Type} (f : Dom τ → σ → Res σ) (s : σ) :
    Block.forEachTotal Dom.blockOps d nb f s = .abort := by
  obtain ⟨n, hn, -⟩ := Dom.extents_ok d
  simp only [Block.forEachTotal, Dom.blockOps, hn, Res.ok_bind, C20_not_power h]
  rfl

/-- Code disagrees with the claim: doubling the count of a huge dimension overflows `ptrdiff_t`. -/
theorem C20_overflow : Block.distribute (BitVec.ofNat 64 (2 ^ 63)) [BitVec.ofNat 64 (2 ^ 62)] = .ub := by
  have key : ∀ k, k ≤ 62 → Block.distributeLoop [BitVec.ofNat 64 (2 ^ 62)] (BitVec.ofNat 64 (2 ^ (k + 1)))
      [BitVec.ofNat 64 (2 ^ (62 - k))] 0 = .ub := by
    intro k
    induction k with
    | zero =>
      intro _
      rw [Block.distributeLoop, if_neg (by decide), dif_neg (by decide), dif_neg (by simp)]
      decide
    | succ k ih =>
      intro hk
      have hlt : 2 ^ (62 - (k + 1)) ≤ 2 ^ 61 := Nat.pow_le_pow_right (by omega) (by omega)
      have hp : 2 ^ (62 - k) = 2 ^ (62 - (k + 1)) * 2 := by
        rw [← Nat.pow_succ]; congr 1; omega
      rw [Block.distributeLoop, if_neg (Block.distributeLoop_eq.ne_one (by omega)),
        dif_neg (Block.distributeLoop_eq.ne_zero (by omega)), dif_neg (by simp)]
      have htw : sMul (BitVec.ofNat 64 (2 ^ (62 - (k + 1)))) 2 = .ok (BitVec.ofNat 64 (2 ^ (62 - k))) := by
        rw [hp]
        generalize 2 ^ (62 - (k + 1)) = m at hlt
        rw [sMul, Support.toInt_ofNat_small (by omega), show (2 : I64).toInt = 2 from rfl,
          Vect.signedRes_ok (by simp only [Vect.InRange]; omega)]
        rfl
      have hdiv : (BitVec.ofNat 64 (2 ^ (k + 1 + 1)) : U64) / 2 = BitVec.ofNat 64 (2 ^ (k + 1)) := by
        apply BitVec.eq_of_toNat_eq
        rw [BitVec.toNat_udiv, Block.toNat_ofNat_pow (by omega), Block.toNat_ofNat_pow (by omega),
          show (2 : U64).toNat = 2 from rfl, Nat.pow_succ 2 (k + 1)]
        omega
      simp only [Block.at', List.getElem?_cons_zero, Res.ok_bind, htw, List.getElem_cons_zero, hdiv, List.set_cons_zero]
      rw [if_pos, ih (by omega)]
      rw [Support.toInt_ofNat_small (by omega), Support.toInt_ofNat_small (by rw [hp]; omega), hp]
      omega
  rw [Block.distribute, if_pos (by decide)]
  exact key 62 (by omega)

/-- Code disagrees with the claim: an empty dimension gets one block. -/
theorem C20_empty_dimension : Block.distribute 1 [0] = .ok [1] := by
  have := Block.distribute_eq (ns := [0]) (k := 0) (by simp) (by omega)
  simpa [greedy] using this

/-! ## Witnesses -/

private def exDom : Dom Char := [('x', (5, 12)), ('y', (0, 3))]

example : Valid exDom := by
  refine ⟨by decide, ?_⟩
  intro q hq
  simp only [exDom, tags, List.map_cons, List.map_nil, List.mem_cons, List.not_mem_nil, or_false] at hq
  rcases hq with rfl | rfl <;> decide
example : ∀ q ∈ tags exDom, 1 ≤ disp q ([('x', 3), ('y', 2)] : Vect Char) := by
  intro q hq
  simp only [exDom, tags, List.map_cons, List.map_nil, List.mem_cons, List.not_mem_nil, or_false] at hq
  rcases hq with rfl | rfl <;> decide
example : (4 : Nat) ≤ (([7, 3] : List Nat).map (fun n => 2 ^ n.log2)).prod := by decide
example : ∀ k, (6 : U64).toNat ≠ 2 ^ k := by
  intro k h
  match k with
  | 0 | 1 | 2 => simp at h
  | k + 3 => rw [Nat.pow_add] at h; have : (6 : U64).toNat = 6 := rfl; have := Nat.two_pow_pos k; omega

end DDC.Props
