import Verif.Model.Block
import Verif.Lemmas.Enumerate
import Mathlib.Data.List.Perm.Basic

/-!
# Blocks: closed forms
-/

namespace DDC

open Tup Spec

variable {τ : Type} [DecidableEq τ]

/-- Cut a list in consecutive pieces of the given sizes. -/
def Spec.pieces {α : Type} : List Nat → List α → List (List α)
  | [], _ => []
  | n :: ns, l => l.take n :: pieces ns (l.drop n)

/-- Sizes of `nb` balanced blocks of `n` points: the first `n % nb` have one more point. -/
def Spec.balanced (n nb : Nat) : List Nat := (List.range nb).map (fun i => n / nb + if i < n % nb then 1 else 0)

/-- All products of one piece per dimension, the last dimension varying fastest. -/
def Spec.products : List (τ × List (List U64)) → List (List (τ × List U64))
  | [] => [[]]
  | (q, cs) :: r => cs.flatMap (fun c => (products r).map (fun ax => (q, c) :: ax))

theorem pieces_flatten {α : Type} (ns : List Nat) (l : List α) (h : ns.sum = l.length) : (pieces ns l).flatten = l := by
  induction ns generalizing l with
  | nil => simp at h; simp [pieces, List.length_eq_zero_iff.1 h.symm]
  | cons n ns ih =>
    rw [List.sum_cons] at h
    rw [pieces, List.flatten_cons, ih (l.drop n) (by simp; omega), List.take_append_drop]

theorem pieces_lengths {α : Type} (ns : List Nat) (l : List α) (h : ns.sum ≤ l.length) :
    (pieces ns l).map List.length = ns := by
  induction ns generalizing l with
  | nil => rfl
  | cons n ns ih =>
    rw [List.sum_cons] at h
    rw [pieces, List.map_cons, ih (l.drop n) (by simp; omega)]
    simp; omega

theorem sum_balanced_aux (q r : Nat) : ∀ k, r ≤ k →
    ((List.range k).map (fun i => q + if i < r then 1 else 0)).sum = k * q + r := by
  intro k
  induction k with
  | zero => intro h; simp; omega
  | succ k ih =>
    intro h
    rw [List.range_succ, List.map_append, List.sum_append]
    simp only [List.map_cons, List.map_nil, List.sum_cons, List.sum_nil, Nat.add_zero]
    by_cases hk : r ≤ k
    · rw [ih hk, if_neg (by omega), Nat.succ_mul]; omega
    · have : r = k + 1 := by omega
      subst this
      have h2 : ((List.range k).map (fun i => q + if i < k + 1 then 1 else 0)).sum = k * q + k := by
        rw [← ih_full q k]
        congr 1
        refine List.map_congr_left ?_
        intro i hi
        rw [List.mem_range] at hi
        rw [if_pos (by omega)]
      rw [h2, if_pos (by omega), Nat.succ_mul]; omega
where
  ih_full (q : Nat) : ∀ k, ((List.range k).map (fun _ => q + 1)).sum = k * q + k := by
    intro k; simp [Nat.mul_add]

theorem sum_balanced {n nb : Nat} (h : 0 < nb) : (balanced n nb).sum = n := by
  rw [balanced, sum_balanced_aux _ _ _ (Nat.mod_lt n h).le, Nat.mul_comm, Nat.mul_comm]
  exact Nat.div_add_mod n nb

/-- What the proof needs of a kind of domains: `axesOf` lists the indices per dimension. -/
structure Spec.BlockAxes {D : Type} (ops : BlockOps τ D) (axesOf : D → List (τ × List U64)) (V : D → Prop) : Prop where
  tags : ∀ d, V d → ops.tags d = Tup.tags (axesOf d)
  nodup : ∀ d, V d → (Tup.tags (axesOf d)).Nodup
  small : ∀ d q l, V d → get q (axesOf d) = .ok l → l.length < 2 ^ 63
  extents : ∀ d, V d → ops.extents d = .ok ((axesOf d).map (fun a => (a.1, (BitVec.ofNat 64 a.2.length : I64))))
  extent : ∀ d q l, V d → get q (axesOf d) = .ok l → ops.extent q d = .ok [(q, BitVec.ofNat 64 l.length)]
  rebind : ∀ d q l, V d → get q (axesOf d) = .ok l → ∃ r, ops.merge [q] [d] = .ok r ∧ V r ∧ axesOf r = [(q, l)]
  take : ∀ d q l (n : Nat), V d → axesOf d = [(q, l)] → n ≤ l.length →
    ∃ r, ops.takeFirst d [(q, BitVec.ofNat 64 n)] = .ok r ∧ V r ∧ axesOf r = [(q, l.take n)]
  drop : ∀ d q l (n : Nat), V d → axesOf d = [(q, l)] → n ≤ l.length →
    ∃ r, ops.removeFirst d [(q, BitVec.ofNat 64 n)] = .ok r ∧ V r ∧ axesOf r = [(q, l.drop n)]
  merge : ∀ (ax : List (τ × List U64)) (ds : List D), (Tup.tags ax).Nodup →
    List.Forall₂ (fun d a => V d ∧ axesOf d = [a]) ds ax →
    ∃ r, ops.merge (Tup.tags ax) ds = .ok r ∧ V r ∧ axesOf r = ax

namespace Block

theorem computeBlockFn_ok {n nb : Nat} (hn : n < 2 ^ 63) (h0 : 0 < nb) (hnb : nb < 2 ^ 63) :
    computeBlockFn (BitVec.ofNat 64 n) (BitVec.ofNat 64 nb) = .ok (BitVec.ofNat 64 (n / nb), BitVec.ofNat 64 (n % nb)) := by
  have hq : n / nb ≤ n := Nat.div_le_self _ _
  have hr : n % nb < nb := Nat.mod_lt _ h0
  have hz : (BitVec.ofNat 64 nb : I64) ≠ 0 := by
    intro h
    have := congrArg BitVec.toNat h
    rw [BitVec.toNat_ofNat, Nat.mod_eq_of_lt (by omega)] at this
    simp at this; omega
  have hs : ∀ k : Nat, k < 2 ^ 63 → signedRes (k : Int) = .ok (BitVec.ofNat 64 k) := by
    intro k hk
    rw [Vect.signedRes_ok (by simp only [Vect.InRange]; omega)]
    congr 1
  simp only [computeBlockFn, SDom.sDiv, if_neg hz, Support.toInt_ofNat_small hn, Support.toInt_ofNat_small hnb]
  rw [show Int.tdiv (n : Int) (nb : Int) = ((n / nb : Nat) : Int) from by
      rw [Int.tdiv_eq_ediv_of_nonneg (by omega)]; rfl,
    show Int.tmod (n : Int) (nb : Int) = ((n % nb : Nat) : Int) from by
      rw [Int.tmod_eq_emod_of_nonneg (by omega)]; rfl,
    hs _ (by omega), hs _ (by omega)]
  rfl

theorem blockSize_ok {n nb : Nat} (hn : n < 2 ^ 63) (h0 : 0 < nb) (hnb : nb < 2 ^ 63) (i : Nat) :
    blockSize (BitVec.ofNat 64 (n / nb), BitVec.ofNat 64 (n % nb)) i
      = .ok (BitVec.ofNat 64 (n / nb + if i < n % nb then 1 else 0)) := by
  have hq : n / nb ≤ n := Nat.div_le_self _ _
  have hr : n % nb < nb := Nat.mod_lt _ h0
  simp only [blockSize, Support.toInt_ofNat_small (show n % nb < 2 ^ 63 by omega)]
  by_cases h : i < n % nb
  · have h2 : n / nb < 2 ^ 63 - 1 := by
      by_contra hc
      have e1 : n / nb = n := by omega
      have e2 := Nat.div_add_mod n nb
      rw [e1] at e2
      have e3 : n ≤ nb * n := Nat.le_mul_of_pos_left n h0
      omega
    generalize n / nb = k at *
    rw [if_pos (by omega), if_pos h, sAdd, Support.toInt_ofNat_small (show k < 2 ^ 63 by omega),
      show (1 : I64).toInt = 1 from rfl, Vect.signedRes_ok (by simp only [Vect.InRange]; omega)]
    congr 1
  · rw [if_neg (by omega), if_neg h, Nat.add_zero]

/-- Closed form of the recursion. -/
theorem forEachRec_eq {D : Type} {ops : BlockOps τ D} {axesOf : D → List (τ × List U64)} {V : D → Prop}
    (hops : BlockAxes ops axesOf V) {d : D} (hd : V d) (nbOf : τ → Nat) :
    ∀ (post pre' : List (τ × List U64)) (pre : List (τ × List U64)) (ds : List D),
      axesOf d = pre' ++ post → Tup.tags pre = Tup.tags pre' → (∀ a ∈ post, 0 < nbOf a.1 ∧ nbOf a.1 < 2 ^ 63) →
      List.Forall₂ (fun d a => V d ∧ axesOf d = [a]) ds pre →
      ∃ Bs : List D, List.Forall₂ (fun B ax => V B ∧ axesOf B = ax) Bs
          ((products (post.map (fun a => (a.1, pieces (balanced a.2.length (nbOf a.1)) a.2)))).map (fun ax => pre ++ ax)) ∧
        ∀ (σ : Type) (f : D → σ → Res σ) (s : σ),
          forEachRec ops d f (post.map (fun a => (a.1, BitVec.ofNat 64 (nbOf a.1)))) ds s
            = Bs.foldlM (fun s b => f b s) s := by
  intro post
  induction post with
  | nil =>
    intro pre' pre ds hax hpre _ hds
    have ht : ops.tags d = Tup.tags pre := by rw [hops.tags d hd, hax, List.append_nil, hpre]
    obtain ⟨r, r1, r2, r3⟩ := hops.merge pre ds (by rw [← ht, hops.tags d hd]; exact hops.nodup d hd) hds
    refine ⟨[r], ?_, ?_⟩
    · simp only [List.map_nil, products, List.map_cons, List.append_nil]
      exact .cons ⟨r2, r3⟩ .nil
    · intro σ f s
      simp only [List.map_nil, forEachRec, ht, r1, Res.ok_bind, List.foldlM_cons, List.foldlM_nil]
      exact (Support.bind_ok' _).symm
  | cons a post ih =>
    obtain ⟨q, l⟩ := a
    intro pre' pre ds hax hpre hnb hds
    obtain ⟨hn0, hn1⟩ := hnb (q, l) (by simp)
    simp only at hn0 hn1
    have hg : get q (axesOf d) = .ok l := get_of_mem (hops.nodup d hd) (by rw [hax]; simp)
    have hl := hops.small d q l hd hg
    obtain ⟨d1, m1, m2, m3⟩ := hops.rebind d q l hd hg
    -- the loop over the blocks of this dimension
    have key : ∀ (is : List Nat) (dom1d : D) (l1 : List U64), V dom1d → axesOf dom1d = [(q, l1)] →
        (is.map (fun i => l.length / nbOf q + if i < l.length % nbOf q then 1 else 0)).sum ≤ l1.length →
        ∃ (Bs : List D) (dom' : D), List.Forall₂ (fun B ax => V B ∧ axesOf B = ax) Bs
          (((pieces (is.map (fun i => l.length / nbOf q + if i < l.length % nbOf q then 1 else 0)) l1).flatMap
            (fun c => (products (post.map (fun a => (a.1, pieces (balanced a.2.length (nbOf a.1)) a.2)))).map
              (fun ax => (q, c) :: ax))).map (fun ax => pre ++ ax)) ∧
          ∀ (σ : Type) (f : D → σ → Res σ) (s : σ),
            is.foldlM (fun (st : σ × D) (ib : Nat) => do
              let n ← blockSize (BitVec.ofNat 64 (l.length / nbOf q), BitVec.ofNat 64 (l.length % nbOf q)) ib
              let block : Vect τ := [(q, n)]
              let t ← ops.takeFirst st.2 block
              let s ← forEachRec ops d f (post.map (fun a => (a.1, BitVec.ofNat 64 (nbOf a.1)))) (ds ++ [t]) st.1
              let dom1d ← ops.removeFirst st.2 block
              pure (s, dom1d)) (s, dom1d) = (do
                let s ← Bs.foldlM (fun s b => f b s) s
                pure (s, dom')) := by
      intro is
      induction is with
      | nil =>
        intro dom1d l1 _ _ _
        exact ⟨[], dom1d, .nil, fun σ f s => rfl⟩
      | cons i is ihs =>
        intro dom1d l1 hV hax1 hsum
        simp only [List.map_cons, List.sum_cons] at hsum
        generalize hk : l.length / nbOf q + (if i < l.length % nbOf q then 1 else 0) = k at hsum
        obtain ⟨t, t1, t2, t3⟩ := hops.take dom1d q l1 k hV hax1 (by omega)
        obtain ⟨u, u1, u2, u3⟩ := hops.drop dom1d q l1 k hV hax1 (by omega)
        obtain ⟨B1, b1, b2⟩ := ih (pre' ++ [(q, l)]) (pre ++ [(q, l1.take k)]) (ds ++ [t]) (by simp [hax])
          (by simp [hpre]) (fun a ha => hnb a (by simp [ha]))
          (List.rel_append hds (.cons ⟨t2, t3⟩ .nil))
        obtain ⟨B2, dom', c1, c2⟩ := ihs u (l1.drop k) u2 u3 (by simp; omega)
        refine ⟨B1 ++ B2, dom', ?_, ?_⟩
        · simp only [List.map_cons, pieces, List.flatMap_cons, List.map_append, hk]
          refine List.rel_append ?_ c1
          rw [List.map_map]
          simpa [Function.comp_def] using b1
        · intro σ f s
          rw [List.foldlM_cons, blockSize_ok hl hn0 hn1, hk]
          simp only [Res.ok_bind, t1, u1, b2 σ f s]
          rw [List.foldlM_append]
          cases hfold : B1.foldlM (fun s b => f b s) s with
          | ok s' => simp only [Res.ok_bind, Res.pure_eq]; exact c2 σ f s'
          | _ => rfl
    obtain ⟨Bs, dom', k1, k2⟩ := key (List.range (nbOf q)) d1 l m2 m3 (by
      rw [← balanced, sum_balanced hn0])
    refine ⟨Bs, ?_, ?_⟩
    · simpa only [List.map_cons, products, balanced] using k1
    · intro σ f s
      simp only [List.map_cons, forEachRec, hops.extent d q l hd hg, Res.ok_bind, get_cons, if_true,
        computeBlockFn_ok hl hn0 hn1, m1]
      rw [Support.loop_zero, Support.toInt_ofNat_small hn1, Int.toNat_natCast, k2 σ f s]
      cases Bs.foldlM (fun s b => f b s) s <;> rfl

theorem flatMap_swap {α β γ : Type} (l : List α) (m : List β) (f : α → β → List γ) :
    (l.flatMap (fun a => m.flatMap (fun b => f a b))).Perm (m.flatMap (fun b => l.flatMap (fun a => f a b))) := by
  induction l with
  | nil => simp
  | cons a l ih =>
    simp only [List.flatMap_cons]
    refine (List.Perm.append_left _ ih).trans ?_
    exact List.flatMap_append_perm m _ _

theorem flatMap_flatten {α β : Type} (l : List (List α)) (f : α → List β) :
    l.flatten.flatMap f = l.flatMap (fun c => c.flatMap f) := by
  induction l with
  | nil => rfl
  | cons a l ih => simp [List.flatMap_append, ih]

omit [DecidableEq τ] in
theorem products_perm (cs : List (τ × List (List U64))) :
    ((products cs).flatMap cart).Perm (cart (cs.map (fun a => (a.1, a.2.flatten)))) := by
  induction cs with
  | nil => simp [products, cart]
  | cons a cs ih =>
    obtain ⟨q, ls⟩ := a
    simp only [products, List.map_cons, cart, flatMap_flatten, List.flatMap_assoc, List.flatMap_map]
    refine List.Perm.flatMap_left _ ?_
    intro c _
    refine (flatMap_swap _ _ _).trans ?_
    refine List.Perm.flatMap_left _ ?_
    intro v _
    rw [← List.map_flatMap]
    exact ih.map _

omit [DecidableEq τ] in
theorem length_products (cs : List (τ × List (List U64))) :
    (products cs).length = (cs.map (fun a => a.2.length)).prod := by
  induction cs with
  | nil => rfl
  | cons a cs ih =>
    obtain ⟨q, ls⟩ := a
    simp only [products, List.map_cons, List.prod_cons, ← ih]
    induction ls with
    | nil => simp
    | cons c ls ihl =>
      rw [List.flatMap_cons, List.length_append, ihl, List.length_map, List.length_cons, Nat.succ_mul, Nat.add_comm]

end Block
end DDC
