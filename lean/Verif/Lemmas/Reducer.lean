import Verif.Model.Reducer
import Verif.Lemmas.ForEach

/-!
# Reductions: closed forms
-/

namespace DDC

open Tup Spec

variable {τ : Type} [DecidableEq τ] {T : Type}

/-- `op` is an associative operation with unit `e` on the values satisfying `P`. -/
structure Spec.MonoidOn (P : T → Prop) (op : T → T → T) (e : T) : Prop where
  unit : P e
  closed : ∀ a b, P a → P b → P (op a b)
  assoc : ∀ a b c, P a → P b → P c → op (op a b) c = op a (op b c)
  left : ∀ a, P a → op e a = a
  right : ∀ a, P a → op a e = a

/-- A commutative `MonoidOn`. -/
structure Spec.CommMonoidOn (P : T → Prop) (op : T → T → T) (e : T) : Prop extends MonoidOn P op e where
  comm : ∀ a b, P a → P b → op a b = op b a

/-- The product `x₁ op x₂ op ... op xₙ op e` of a list. -/
def Spec.product (op : T → T → T) (e : T) (l : List T) : T := l.foldr op e

theorem Spec.MonoidOn.product_mem {P : T → Prop} {op : T → T → T} {e : T} (h : MonoidOn P op e) {l : List T}
    (hl : ∀ x ∈ l, P x) : P (product op e l) := by
  induction l with
  | nil => exact h.unit
  | cons x l ih => exact h.closed _ _ (hl x (by simp)) (ih (fun y hy => hl y (by simp [hy])))

theorem Spec.MonoidOn.product_append {P : T → Prop} {op : T → T → T} {e : T} (h : MonoidOn P op e) {l m : List T}
    (hl : ∀ x ∈ l, P x) (hm : ∀ x ∈ m, P x) :
    product op e (l ++ m) = op (product op e l) (product op e m) := by
  induction l with
  | nil => exact (h.left _ (h.product_mem hm)).symm
  | cons x l ih =>
    have hx := hl x (by simp)
    have hl' : ∀ y ∈ l, P y := fun y hy => hl y (by simp [hy])
    show op x (product op e (l ++ m)) = op (op x (product op e l)) (product op e m)
    rw [ih hl', h.assoc _ _ _ hx (h.product_mem hl') (h.product_mem hm)]

theorem Spec.CommMonoidOn.product_perm {P : T → Prop} {op : T → T → T} {e : T} (h : CommMonoidOn P op e) {l m : List T}
    (hp : l.Perm m) (hl : ∀ x ∈ l, P x) : product op e l = product op e m := by
  induction hp with
  | nil => rfl
  | cons x _ ih => exact congrArg (op x) (ih (fun y hy => hl y (by simp [hy])))
  | swap x y l =>
    have hx := hl x (by simp)
    have hy := hl y (by simp)
    have hq : P (product op e l) := h.product_mem (fun z hz => hl z (by simp [hz]))
    show op y (op x (product op e l)) = op x (op y (product op e l))
    rw [← h.assoc _ _ _ hy hx hq, h.comm y x hy hx, h.assoc _ _ _ hx hy hq]
  | trans h1 _ ih1 ih2 =>
    rw [ih1 hl, ih2 (fun x hx => hl x (h1.mem_iff.2 hx))]

/-- A left fold from any value of the monoid. -/
theorem Spec.MonoidOn.foldl_eq {P : T → Prop} {op : T → T → T} {e : T} (h : MonoidOn P op e) {l : List T}
    (hl : ∀ x ∈ l, P x) {a : T} (ha : P a) : l.foldl op a = op a (product op e l) := by
  induction l generalizing a with
  | nil => exact (h.right a ha).symm
  | cons x l ih =>
    have hx := hl x (by simp)
    have hl' : ∀ y ∈ l, P y := fun y hy => hl y (by simp [hy])
    rw [List.foldl_cons, ih hl' (h.closed _ _ ha hx)]
    exact h.assoc _ _ _ ha hx (h.product_mem hl')

/-- A left fold that combines on the left multiplies in reverse order. -/
theorem Spec.MonoidOn.foldl_rev {P : T → Prop} {op : T → T → T} {e : T} (h : MonoidOn P op e) {l : List T}
    (hl : ∀ x ∈ l, P x) {a : T} (ha : P a) :
    l.foldl (fun acc x => op x acc) a = op (product op e l.reverse) a := by
  induction l generalizing a with
  | nil => exact (h.left a ha).symm
  | cons x l ih =>
    have hx := hl x (by simp)
    have hl' : ∀ y ∈ l, P y := fun y hy => hl y (by simp [hy])
    have hr : ∀ y ∈ l.reverse, P y := fun y hy => hl' y (List.mem_reverse.1 hy)
    rw [List.foldl_cons, ih hl' (h.closed _ _ hx ha), List.reverse_cons,
      h.product_append hr (by simpa using hx)]
    show op _ (op x a) = op (op _ (op x e)) a
    rw [h.right x hx, h.assoc _ _ _ (h.product_mem hr) hx ha]

namespace Support

theorem foldlM_ok {α σ : Type} (l : List α) (g : σ → α → σ) (f : σ → α → Res σ) (s : σ)
    (h : ∀ s, ∀ a ∈ l, f s a = .ok (g s a)) : l.foldlM f s = .ok (l.foldl g s) := by
  induction l generalizing s with
  | nil => rfl
  | cons a l ih =>
    rw [List.foldlM_cons, h s a (by simp), Res.ok_bind, List.foldl_cons]
    exact ih _ (fun s b hb => h s b (by simp [hb]))

theorem foldlM_ok_inv {α σ : Type} (I : σ → Prop) (l : List α) (g : σ → α → σ) (f : σ → α → Res σ) (s : σ)
    (hs : I s) (h : ∀ s, I s → ∀ a ∈ l, f s a = .ok (g s a) ∧ I (g s a)) :
    l.foldlM f s = .ok (l.foldl g s) := by
  induction l generalizing s with
  | nil => rfl
  | cons a l ih =>
    obtain ⟨h1, h2⟩ := h s hs a (by simp)
    rw [List.foldlM_cons, h1, Res.ok_bind, List.foldl_cons]
    exact ih _ h2 (fun s hs b hb => h s hs b (by simp [hb]))

theorem mapM_perm {α β : Type} {f : α → Res β} {l m : List α} {r : List β} (hp : l.Perm m)
    (h : m.mapM f = .ok r) : ∃ r', l.mapM f = .ok r' ∧ r'.Perm r := by
  induction hp generalizing r with
  | nil => exact ⟨r, h, .refl _⟩
  | cons x _ ih =>
    rw [List.mapM_cons] at h ⊢
    obtain ⟨y, h1, h⟩ := Res.bind_eq_ok.1 h
    obtain ⟨ys, h2, h⟩ := Res.bind_eq_ok.1 h
    obtain ⟨r', r1, r2⟩ := ih h2
    have h : r = y :: ys := (Res.ok.inj h).symm
    subst h
    exact ⟨y :: r', by rw [h1, r1]; rfl, r2.cons y⟩
  | swap x y l =>
    rw [List.mapM_cons] at h
    obtain ⟨a, h1, h⟩ := Res.bind_eq_ok.1 h
    obtain ⟨ys, h2, h⟩ := Res.bind_eq_ok.1 h
    rw [List.mapM_cons] at h2
    obtain ⟨b, h3, h2⟩ := Res.bind_eq_ok.1 h2
    obtain ⟨zs, h4, h2⟩ := Res.bind_eq_ok.1 h2
    have h : r = a :: ys := (Res.ok.inj h).symm
    have h2 : ys = b :: zs := (Res.ok.inj h2).symm
    subst h h2
    refine ⟨b :: a :: zs, ?_, .swap _ _ _⟩
    rw [List.mapM_cons, h3, List.mapM_cons, h1, h4]; rfl
  | trans _ _ ih1 ih2 =>
    obtain ⟨r', h1, h2⟩ := ih2 h
    obtain ⟨r'', h3, h4⟩ := ih1 h1
    exact ⟨r'', h3, h4.trans h2⟩

theorem mapM_perm_inv {α β : Type} {f : α → Res β} {m : List α} {r r' : List β} (h : m.mapM f = .ok r)
    (hp : r'.Perm r) : ∃ l : List α, l.Perm m ∧ l.mapM f = .ok r' := by
  induction hp generalizing m with
  | nil => exact ⟨m, .refl _, h⟩
  | cons x _ ih =>
    cases m with
    | nil => cases (Res.ok.inj h)
    | cons a m =>
      rw [List.mapM_cons] at h
      obtain ⟨y, h1, h⟩ := Res.bind_eq_ok.1 h
      obtain ⟨ys, h2, h⟩ := Res.bind_eq_ok.1 h
      obtain ⟨rfl, rfl⟩ := List.cons.inj (Res.ok.inj h)
      obtain ⟨l, l1, l2⟩ := ih h2
      exact ⟨a :: l, l1.cons a, by rw [List.mapM_cons, h1, l2]; rfl⟩
  | swap x y l =>
    cases m with
    | nil => cases (Res.ok.inj h)
    | cons a m =>
      rw [List.mapM_cons] at h
      obtain ⟨y', h1, h⟩ := Res.bind_eq_ok.1 h
      obtain ⟨ys, h2, h⟩ := Res.bind_eq_ok.1 h
      obtain ⟨rfl, rfl⟩ := List.cons.inj (Res.ok.inj h)
      cases m with
      | nil => cases (Res.ok.inj h2)
      | cons b m =>
        rw [List.mapM_cons] at h2
        obtain ⟨z, h3, h2⟩ := Res.bind_eq_ok.1 h2
        obtain ⟨zs, h4, h2⟩ := Res.bind_eq_ok.1 h2
        obtain ⟨rfl, rfl⟩ := List.cons.inj (Res.ok.inj h2)
        refine ⟨b :: a :: m, .swap _ _ _, ?_⟩
        rw [List.mapM_cons, h3, List.mapM_cons, h1, h4]; rfl
  | trans _ _ ih1 ih2 =>
    obtain ⟨l, l1, l2⟩ := ih2 h
    obtain ⟨l', l3, l4⟩ := ih1 l2
    exact ⟨l', l3.trans l1, l4⟩

theorem transformReduceSerial_eq {S : Support τ} {ax : List (τ × List U64)} (hg : Grid S ax)
    {P : T → Prop} {op : T → T → T} {neutral : T} (hm : MonoidOn P op neutral) (g : Elem τ → T)
    (hP : ∀ e, P (g e)) :
    ∀ (post pre : List (τ × List U64)) (is : List I64) (e : Elem τ),
      ax = pre ++ post → Picks pre is e →
      transformReduceSerial S neutral (fun a b => .ok (op a b)) (fun e => .ok (g e))
        (post.map (fun a => BitVec.ofNat 64 a.2.length)) is
        = .ok (product op neutral ((cart post).map (fun e' => g (e ++ e'))).reverse) := by
  intro post
  induction post with
  | nil =>
    intro pre is e hax hp
    simp only [List.append_nil] at hax
    simp only [List.map_nil, transformReduceSerial, leaf, hg.tags, cart]
    rw [hg.pick is e (hax ▸ hp)]
    simp only [Res.ok_bind, List.map_cons, List.append_nil, List.map_nil, List.reverse_singleton, product,
      List.foldr_cons, List.foldr_nil]
    rw [hm.right _ (hP _)]
  | cons a post ih =>
    intro pre is e hax hp
    obtain ⟨t, l⟩ := a
    have hl : l.length < 2 ^ 63 := hg.small (t, l) (by simp [hax])
    simp only [List.map_cons, transformReduceSerial, cart]
    rw [loop_zero, toInt_ofNat_small hl, Int.toNat_natCast]
    have hblk : ∀ x, ∀ y ∈ ((cart post).map (fun e' => g (e ++ [(t, x)] ++ e'))).reverse, P y := by
      intro x y hy
      obtain ⟨e', _, rfl⟩ := List.mem_map.1 (List.mem_reverse.1 hy)
      exact hP _
    rw [foldlM_range l _ (fun (r : T) x => Res.ok (op (product op neutral
      ((cart post).map (fun e' => g (e ++ [(t, x)] ++ e'))).reverse) r)) (by
      intro i x r hx
      have hi : i < l.length := (List.getElem?_eq_some_iff.1 hx).1
      rw [ih (pre ++ [(t, l)]) _ (e ++ [(t, x)]) (by simp [hax])
        (picks_append hp (by rw [toNat_ofInt_small (by omega)]; exact hx)), Res.ok_bind]) neutral]
    have key : ∀ (m : List U64) (r : T), P r →
        m.foldlM (fun (r : T) x => Res.ok (op (product op neutral
          ((cart post).map (fun e' => g (e ++ [(t, x)] ++ e'))).reverse) r)) r
        = .ok (op (product op neutral ((m.flatMap (fun x => (cart post).map (fun e' => (t, x) :: e'))).map
            (fun e' => g (e ++ e'))).reverse) r) := by
      intro m
      induction m with
      | nil =>
        intro r hr
        simp [product, hm.left r hr]
      | cons x m ihm =>
        intro r hr
        rw [List.foldlM_cons, Res.ok_bind, ihm _ (hm.closed _ _ (hm.product_mem (hblk x)) hr)]
        congr 1
        have hm1 : ∀ y ∈ ((m.flatMap (fun x => (cart post).map (fun e' => (t, x) :: e'))).map
            (fun e' => g (e ++ e'))).reverse, P y := by
          intro y hy
          obtain ⟨e', _, rfl⟩ := List.mem_map.1 (List.mem_reverse.1 hy)
          exact hP _
        have heq : (((x :: m).flatMap (fun x => (cart post).map (fun e' => (t, x) :: e'))).map
            (fun e' => g (e ++ e'))).reverse
            = ((m.flatMap (fun x => (cart post).map (fun e' => (t, x) :: e'))).map (fun e' => g (e ++ e'))).reverse
              ++ ((cart post).map (fun e' => g (e ++ [(t, x)] ++ e'))).reverse := by
          simp [List.flatMap_cons, List.map_append, Function.comp_def]
        rw [heq, hm.product_append hm1 (hblk x),
          hm.assoc _ _ _ (hm.product_mem hm1) (hm.product_mem (hblk x)) hr]
    rw [key l neutral hm.unit, hm.right]
    refine hm.product_mem ?_
    intro y hy
    obtain ⟨e', _, rfl⟩ := List.mem_map.1 (List.mem_reverse.1 hy)
    exact hP _

theorem transformReduce_eq {S : Support τ} {ax : List (τ × List U64)} (hg : Grid S ax)
    {P : T → Prop} {op : T → T → T} {neutral : T} (hm : MonoidOn P op neutral) (g : Elem τ → T)
    (hP : ∀ e, P (g e)) :
    transformReduce S neutral (fun a b => .ok (op a b)) (fun e => .ok (g e))
      = .ok (product op neutral ((cart ax).map g).reverse) := by
  simp only [transformReduce, hg.extents, Res.ok_bind, vals_lengths]
  rw [transformReduceSerial_eq hg hm g hP ax [] [] [] rfl trivial]
  rfl

/-! ## The iteration space of the parallel algorithms -/

/-- Index tuples of the axes, in lexicographic order. -/
theorem adapter_policy {S : Support τ} {ax : List (τ × List U64)} (hg : Grid S ax) :
    (policy (ax.map (fun a => BitVec.ofNat 64 a.2.length))).mapM (adapter S) = .ok (cart ax) := by
  have key : ∀ (post pre : List (τ × List U64)) (is : List I64) (e : Elem τ), ax = pre ++ post →
      Picks pre is e →
      (mdRange (post.map (fun a => BitVec.ofNat 64 a.2.length))).mapM (fun ids => S.at' (S.tags.zip (is ++ ids)))
        = .ok ((cart post).map (fun e' => e ++ e')) := by
    intro post
    induction post with
    | nil =>
      intro pre is e hax hp
      simp only [List.append_nil] at hax
      simp only [List.map_nil, mdRange, cart, List.map_cons, hg.tags]
      rw [List.mapM_cons, List.append_nil, hg.pick is e (hax ▸ hp)]
      simp
    | cons a post ih =>
      intro pre is e hax hp
      obtain ⟨t, l⟩ := a
      have hl : l.length < 2 ^ 63 := hg.small (t, l) (by simp [hax])
      simp only [List.map_cons, mdRange, cart]
      rw [toInt_ofNat_small hl, Int.toNat_natCast]
      -- positions of the first axis one by one
      have step : ∀ (m : List Nat) (xs : List U64), List.Forall₂ (fun i x => l[i]? = some x) m xs →
          ((m.map (fun i => (BitVec.ofNat 64 i : I64))).flatMap
            (fun i => (mdRange (post.map (fun a => BitVec.ofNat 64 a.2.length))).map (fun r => i :: r))).mapM
            (fun ids => S.at' (S.tags.zip (is ++ ids)))
          = .ok ((xs.flatMap (fun v => (cart post).map (fun e => (t, v) :: e))).map (fun e' => e ++ e')) := by
        intro m xs hf
        induction hf with
        | nil => rfl
        | @cons i x m xs hx _ ihm =>
          have hi : i < l.length := (List.getElem?_eq_some_iff.1 hx).1
          rw [List.map_cons, List.flatMap_cons, List.mapM_append, ihm, List.flatMap_cons, List.map_append,
            List.mapM_map]
          have h1 := ih (pre ++ [(t, l)]) (is ++ [BitVec.ofNat 64 i]) (e ++ [(t, x)]) (by simp [hax])
            (picks_append hp (by
              rw [BitVec.toNat_ofNat, Nat.mod_eq_of_lt (by omega)]; exact hx))
          have h2 : (fun ids => S.at' (S.tags.zip (is ++ [BitVec.ofNat 64 i] ++ ids)))
              = (fun ids => S.at' (S.tags.zip (is ++ (BitVec.ofNat 64 i :: ids)))) := by
            funext ids; simp
          rw [h2] at h1
          have h3 : ((fun ids => S.at' (S.tags.zip (is ++ ids))) ∘ fun r => (BitVec.ofNat 64 i : I64) :: r)
              = (fun ids => S.at' (S.tags.zip (is ++ (BitVec.ofNat 64 i :: ids)))) := rfl
          rw [h3, h1]
          simp [Function.comp_def]
      refine step (List.range l.length) l ?_
      rw [List.forall₂_iff_get]
      refine ⟨by simp, ?_⟩
      intro i h1 h2
      simp [List.getElem?_eq_getElem h2]
  have full := key ax [] [] [] rfl trivial
  simp only [List.nil_append, List.map_id'] at full
  rcases ax with _ | ⟨a, _ | ⟨b, ax⟩⟩
  · have ht : S.tags = [] := hg.tags
    simp only [List.map_nil, mdRange, ht, List.zip_nil_left] at full
    simp only [List.map_nil, policy]
    rw [show (List.range 1).map (fun i => [(BitVec.ofNat 64 i : I64)]) = [[0]] from rfl]
    rw [List.mapM_cons] at full ⊢
    simpa [adapter, ht] using full
  · have ht : S.tags = [a.1] := hg.tags
    have hm : mdRange ([a].map (fun a => BitVec.ofNat 64 a.2.length))
        = policy ([a].map (fun a => BitVec.ofNat 64 a.2.length)) := by
      simp only [List.map_cons, List.map_nil, mdRange, policy]
      induction (List.range (BitVec.toInt (BitVec.ofNat 64 a.2.length)).toNat) with
      | nil => rfl
      | cons x l ih => simpa using ih
    rw [hm] at full
    have ha : adapter S = fun ids => S.at' (S.tags.zip ids) := by
      funext ids; simp [adapter, ht]
    rw [ha]; exact full
  · have ht : S.tags = a.1 :: b.1 :: ax.map Prod.fst := hg.tags
    have ha : adapter S = fun ids => S.at' (S.tags.zip ids) := by
      funext ids; simp [adapter, ht]
    rw [ha]; exact full

end Support
end DDC
