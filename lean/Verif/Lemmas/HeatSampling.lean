import Verif.Model.HeatSampling
import Verif.Lemmas.HeatMain
import Verif.Props.C28

/-!
# The heat equation by distances
-/

namespace DDC.Heat

open Tup Spec Props Grid2
open One (seg el vec)

set_option linter.unusedSectionVars false

variable {K : Type} [Field K] [LinearOrder K] [IsStrictOrderedRing K]

theorem foldMax {body : K → Nat → Res K} {f : Nat → K} (n : Nat)
    (hb : ∀ j, j < n → ∀ s, body s j = .ok (if f j > s then f j else s)) :
    ∃ m, (List.range n).foldlM body 0 = .ok m ∧ 0 ≤ m ∧ (∀ j, j < n → f j ≤ m) ∧ (m = 0 ∨ ∃ j, j < n ∧ m = f j) := by
  induction n with
  | zero => exact ⟨0, rfl, le_refl _, by simp, .inl rfl⟩
  | succ n ih =>
    obtain ⟨m, h1, h0, h2, h3⟩ := ih (fun j hj => hb j (by omega))
    rw [List.range_succ, List.foldlM_append, h1, Res.ok_bind, List.foldlM_cons, hb n (by omega), Res.ok_bind]
    refine ⟨_, rfl, ?_, ?_, ?_⟩
    · split
      · rename_i h; exact (h0.trans_lt h).le
      · exact h0
    · intro j hj
      split
      · rename_i h
        rcases Nat.lt_succ_iff_lt_or_eq.1 hj with hj | rfl
        · exact (h2 j hj).trans h.le
        · exact le_refl _
      · rename_i h
        rcases Nat.lt_succ_iff_lt_or_eq.1 hj with hj | rfl
        · exact h2 j hj
        · exact not_lt.1 h
    · split
      · exact .inr ⟨n, by omega, rfl⟩
      · rcases h3 with h3 | ⟨j, hj, h3⟩
        · exact .inl h3
        · exact .inr ⟨j, by omega, h3⟩

theorem leaf_seg (t : Dim) (n j : Nat) :
    Support.leaf (Dom.support (seg t 1 (n + 1))) [BitVec.ofInt 64 (0 + (j : Int))] = .ok (el t (j + 1)) := by
  have : Support.leaf (Dom.support (seg t 1 (n + 1))) [BitVec.ofInt 64 (0 + (j : Int))] = Dom.at' (seg t 1 (n + 1)) (vec t j) := by
    simp [Support.leaf, Dom.support, seg, vec]
  have hb : Dom.beg (seg t 1 (n + 1)) = el t 1 := rfl
  rw [this, Dom.at', hb, One.addVec_nat, Nat.add_comm]
  simp [seg, vec, Nat.add_comm]

theorem invMax_ok {S : Sampler K} {t : Dim} {n : Nat} {l r : Nat → K} (hn : 1 ≤ n) (hn2 : n < 2 ^ 63)
    (hl : ∀ i, 1 ≤ i → i < n + 1 → S.left (el t i) = .ok (l i) ∧ 0 < l i)
    (hr : ∀ i, 1 ≤ i → i < n + 1 → S.right (el t i) = .ok (r i) ∧ 0 < r i) :
    ∃ m, invMax S (seg t 1 (n + 1)) = .ok m ∧ (∀ i, 1 ≤ i → i < n + 1 → 1 / (l i * r i) ≤ m) ∧
      ∃ i, 1 ≤ i ∧ i < n + 1 ∧ m = 1 / (l i * r i) := by
  have hpos : ∀ i, 1 ≤ i → i < n + 1 → 0 < 1 / (l i * r i) := fun i h1 h2 =>
    div_pos one_pos (mul_pos (hl i h1 h2).2 (hr i h1 h2).2)
  obtain ⟨m, h1, h0, h2, h3⟩ := foldMax (f := fun j => 1 / (l (j + 1) * r (j + 1)))
    (body := fun (s : K) (j : Nat) => (do
      let x ← (do
        let e ← Support.leaf (Dom.support (seg t 1 (n + 1))) [BitVec.ofInt 64 (0 + (j : Int))]
        let l ← S.left e
        let r ← S.right e
        .ok (1 / (l * r)) : Res K)
      .ok (Reducer.max x s) : Res K)) n
    (by
      intro j hj s
      simp only [leaf_seg, Res.ok_bind, (hl (j + 1) (by omega) (by omega)).1, (hr (j + 1) (by omega) (by omega)).1, Reducer.max])
  refine ⟨m, ?_, ?_, ?_⟩
  · rw [invMax, Support.transformReduce]
    have he : (Dom.support (seg t 1 (n + 1))).extents = .ok (vec t n) := One.extents_nat t (by omega)
    have hlo : Support.transformReduceSerial (Dom.support (seg t 1 (n + 1))) (0 : K) (fun a b => .ok (Reducer.max a b)) (fun i => do
        let l ← S.left i
        let r ← S.right i
        .ok (1 / (l * r))) (vals (vec t n)) [] = .ok m := by
      rw [← h1]
      simp only [vec, vals, List.map_cons, List.map_nil, Support.transformReduceSerial, List.nil_append, One.toInt_ofNat hn2]
      rw [Support.loop_eq n _ n 0 (by omega)]
    rw [he, Res.ok_bind, hlo]
    rfl
  · intro i hi1 hi2
    have := h2 (i - 1) (by omega)
    rwa [show i - 1 + 1 = i by omega] at this
  · rcases h3 with h3 | ⟨j, hj, h3⟩
    · have := h2 0 (by omega)
      have := hpos 1 (by omega) (by omega)
      simp only [Nat.zero_add] at *
      linarith
    · exact ⟨j + 1, by omega, by omega, h3⟩

/-- The greatest `1 / (l r)`. -/
def IsInvMax (n : Nat) (l r : Nat → K) (m : K) : Prop :=
  (∀ i, 1 ≤ i → i < n + 1 → 1 / (l i * r i) ≤ m) ∧ ∃ i, 1 ≤ i ∧ i < n + 1 ∧ m = 1 / (l i * r i)

theorem IsInvMax.unique {n : Nat} {l r : Nat → K} {m m' : K} (h : IsInvMax n l r m) (h' : IsInvMax n l r m') : m = m' := by
  obtain ⟨h1, i, i1, i2, i3⟩ := h
  obtain ⟨h1', j, j1, j2, j3⟩ := h'
  exact le_antisymm (i3 ▸ h1' i i1 i2) (j3 ▸ h1 j j1 j2)

/-- What is added at the point `i`. -/
def incOf (k dt : K) (l r : Nat → K) (i : Nat) (x c y : K) : K :=
  k * dt * (l i * x - 2 * (1 / 2 * (l i + r i)) * c + r i * y) / (l i * (1 / 2 * (l i + r i)) * r i)

theorem solve_ok [FloorRing K] {kx ky t0 t1 : K} {nx ny M : Nat} (hx1 : 1 ≤ nx) (hy1 : 1 ≤ ny) (hx2 : nx + 2 < 2 ^ 63)
    (hy2 : ny + 2 < 2 ^ 63) (hc : (nx + 2) * (ny + 2) < 2 ^ 64) (ht : t0 < t1) {X Y : Sampler K} {xs lx rx ys ly ry : Nat → K}
    (hX : ∀ i, 1 ≤ i → i < nx + 1 → X.coordinate (el .x i) = .ok (xs i) ∧ (X.left (el .x i) = .ok (lx i) ∧ 0 < lx i) ∧
      X.right (el .x i) = .ok (rx i) ∧ 0 < rx i)
    (hY : ∀ i, 1 ≤ i → i < ny + 1 → Y.coordinate (el .y i) = .ok (ys i) ∧ (Y.left (el .y i) = .ok (ly i) ∧ 0 < ly i) ∧
      Y.right (el .y i) = .ok (ry i) ∧ 0 < ry i)
    {mx my : K} (hmx : IsInvMax nx lx rx mx) (hmy : IsInvMax ny ly ry my)
    (hM : ⌈(t1 - t0) / (1 / 2 / (kx * mx + ky * my))⌉ = (M : Int)) (hM0 : 0 < M) (hM1 : M + 1 < 2 ^ 63)
    (temp : K → K → K) (junk : Nat → K)
    {order : List (List I64)} (ho : order.Perm (Support.policy [BitVec.ofNat 64 nx, BitVec.ofNat 64 ny]))
    {orders : Nat → Orders} (hos : ∀ k, OrdersOk nx ny (orders k)) :
    ∃ mem v s pos N, solve kx ky t0 t1 (axisOf .x nx) (axisOf .y ny) X Y temp junk order orders = .ok (mem, v) ∧
      Grid nx ny N pos s ∧ v.span = s ∧
      Holds nx ny pos mem v.buf ((step (· + ·) (incOf kx ((t1 - t0) / M) lx rx) (incOf ky ((t1 - t0) / M) ly ry) nx ny)^[M]
        (fun i j => temp (xs i) (ys j))) := by
  obtain ⟨mx', a1, a2⟩ := invMax_ok (S := X) (t := .x) hx1 (by omega) (fun i h1 h2 => (hX i h1 h2).2.1) (fun i h1 h2 => (hX i h1 h2).2.2)
  obtain rfl := hmx.unique a2
  obtain ⟨my', b1, b2⟩ := invMax_ok (S := Y) (t := .y) hy1 (by omega) (fun i h1 h2 => (hY i h1 h2).2.1) (fun i h1 h2 => (hY i h1 h2).2.2)
  obtain rfl := hmy.unique b2
  have hi3 := init_ok Dim.t t0 t1 ht (M + 1) (by omega) hM1
  rw [show M + 1 - 1 = M by omega] at hi3
  obtain ⟨mem, last, next, s, pos, N, c1, G, c3, c4, c5, c6, c7, c8⟩ := allocate_ok (nx := nx) (ny := ny) hx1 hy1
    hx2 hy2 hc (xOf := X.coordinate) (yOf := Y.coordinate) (xs := xs) (ys := ys)
    (fun i h1 h2 => (hX i h1 h2).1) (fun j h1 h2 => (hY j h1 h2).1) temp junk ho
  obtain ⟨mem', v, d1, d2, d3⟩ := timeLoop_ok (add := (· + ·)) (incX := distanceInc X kx ((t1 - t0) / M)) (incY := distanceInc Y ky ((t1 - t0) / M))
    (dX := incOf kx ((t1 - t0) / M) lx rx) (dY := incOf ky ((t1 - t0) / M) ly ry) G
    (fun i h1 h2 r c l => by
      rw [distanceInc, (hX i h1 h2).2.1.1, Res.ok_bind, (hX i h1 h2).2.2.1, Res.ok_bind, incOf])
    (fun i h1 h2 r c l => by
      rw [distanceInc, (hY i h1 h2).2.1.1, Res.ok_bind, (hY i h1 h2).2.2.1, Res.ok_bind, incOf])
    hos M 0 c3 c4 c5 c6 c7 c8
  refine ⟨mem', v, s, pos, N, ?_, G, d2, d3⟩
  obtain ⟨t1, t2⟩ := time_ok M hM1
  have hadd : Vect.addInt [(Dim.t, BitVec.ofNat 64 M)] 1 = .ok [(Dim.t, BitVec.ofNat 64 (M + 1))] := by
    have : (1 : I64) = BitVec.ofNat 64 1 := rfl
    rw [Vect.addInt, this, One.sAdd_nat hM1]; rfl
  have hMn : (BitVec.ofNat 64 M).toNat = M := toNat_small (by omega)
  have a1' : invMax X (axisOf .x nx).main = .ok mx := a1
  have b1' : invMax Y (axisOf .y ny).main = .ok my := b1
  rw [solve, a1', Res.ok_bind, b1', Res.ok_bind]
  simp only [Res.ok_bind, ceilCast_ok hM (show M < 2 ^ 63 by omega), hadd, hi3, c1, t1, t2, hMn, d1]

/-! ## The points of the non-uniform sampling -/

/-- Point `i` of `n`. -/
def pointOf (lo hi : K) (dis : Nat → K) (n i : Nat) : K :=
  lo + ((i : K) + if 1 ≤ i ∧ i + 1 < n then dis i else 0) * ((hi - lo) / ((n : K) - 1))

section points

variable {lo hi : K} {dis : Nat → K} {n : Nat}

theorem point_lt (hab : lo < hi) (hn : 2 ≤ n) (hd : ∀ i, 1 ≤ i → i + 1 < n → -(1 / 10) ≤ dis i ∧ dis i ≤ 1 / 10) (i : Nat) :
    pointOf lo hi dis n i < pointOf lo hi dis n (i + 1) := by
  have hn' : (2 : K) ≤ n := by exact_mod_cast hn
  have hdx : 0 < (hi - lo) / ((n : K) - 1) := div_pos (by linarith) (by linarith)
  have h : ∀ j, -(1 / 10 : K) ≤ (if 1 ≤ j ∧ j + 1 < n then dis j else 0) ∧ (if 1 ≤ j ∧ j + 1 < n then dis j else 0) ≤ (1 / 10 : K) := by
    intro j
    split
    · rename_i h; exact hd j h.1 h.2
    · constructor <;> norm_num
  have h1 := (h i).2
  have h2 := (h (i + 1)).1
  rw [pointOf, pointOf]
  have : ((i : K) + if 1 ≤ i ∧ i + 1 < n then dis i else 0) < (((i + 1 : Nat) : K) + if 1 ≤ i + 1 ∧ i + 1 + 1 < n then dis (i + 1) else 0) := by
    rw [Nat.cast_add, Nat.cast_one]; linarith
  have := mul_lt_mul_of_pos_right this hdx
  linarith

theorem point_first : pointOf lo hi dis n 0 = lo := by simp [pointOf]

theorem point_last (hn : 2 ≤ n) : pointOf lo hi dis n (n - 1) = hi := by
  have hn' : (2 : K) ≤ n := by exact_mod_cast hn
  have : (n : K) - 1 ≠ 0 := by linarith
  rw [pointOf, if_neg (by omega), Nat.cast_sub (by omega), Nat.cast_one, add_zero, mul_div_cancel₀ _ this]
  ring

theorem increasing_points (hab : lo < hi) (hn : 2 ≤ n) (hd : ∀ i, 1 ≤ i → i + 1 < n → -(1 / 10) ≤ dis i ∧ dis i ≤ 1 / 10)
    {i j : Nat} (h : i < j) : pointOf lo hi dis n i < pointOf lo hi dis n j := by
  induction j, h using Nat.le_induction with
  | base => exact point_lt hab hn hd i
  | succ j _ ih => exact ih.trans (point_lt hab hn hd j)

theorem generate_ok (hab : lo < hi) (hn : 2 ≤ n) (hn2 : n < 2 ^ 31)
    (hd : ∀ i, 1 ≤ i → i + 1 < n → -(1 / 10) ≤ dis i ∧ dis i ≤ 1 / 10) :
    generate ((BitVec.ofNat 64 n).truncate 32) lo hi dis = .ok ((List.range n).map (pointOf lo hi dis n)) := by
  have hI : ((BitVec.ofNat 64 n).truncate 32).toInt = (n : Int) := by
    rw [BitVec.toInt_eq_toNat_cond]
    simp only [BitVec.truncate_eq_setWidth, BitVec.toNat_setWidth, BitVec.toNat_ofNat]
    rw [Nat.mod_eq_of_lt (show n < 2 ^ 64 by omega), Nat.mod_eq_of_lt (show n < 2 ^ 32 by omega), if_pos (by omega)]
  have hp : ((List.range n).map (fun (i : Nat) => lo + (i : K) * ((hi - lo) / (((n : Int) - 1 : Int) : K)))).mapIdx
      (fun i x => if 1 ≤ i ∧ (i : Int) < (n : Int) - 1 then x + dis i * ((hi - lo) / (((n : Int) - 1 : Int) : K)) else x) =
      (List.range n).map (pointOf lo hi dis n) := by
    refine List.ext_getElem (by simp) ?_
    intro i h1 h2
    simp only [List.getElem_mapIdx, List.getElem_map, List.getElem_range, pointOf]
    push_cast
    by_cases h : 1 ≤ i ∧ i + 1 < n
    · rw [if_pos ⟨h.1, by omega⟩, if_pos h]; ring
    · rw [if_neg (by omega), if_neg h]; ring
  have hs : isSorted ((List.range n).map (pointOf lo hi dis n)) = true := by
    rw [isSorted_iff]
    intro i j hij hj
    simp only [List.getElem_map, List.getElem_range]
    rcases Nat.eq_or_lt_of_le hij with rfl | h
    · exact le_refl _
    · exact (increasing_points hab hn hd h).le
  have h1 : decide (1 < (n : Int)) = true := by simp; omega
  simp only [generate, hI, h1, Res.guardAbort_true, Res.ok_bind, hab, decide_true, Int.toNat_natCast, hp, hs]

/-- The points with the ghosts. -/
def ghostOf (x : Nat → K) (L : K) (n i : Nat) : K :=
  if i = 0 then x (n - 2) - L else if i = n + 1 then x 1 + L else x (i - 1)

theorem extrapolate_ok {x : Nat → K} (hx : ∀ i j, i < j → x i < x j) (hn : 2 ≤ n) :
    extrapolateLeft 1 ((List.range n).map x) = .ok [x (n - 2) - (x (n - 1) - x 0)] ∧
      extrapolateRight 1 ((List.range n).map x) = .ok [x 1 + (x (n - 1) - x 0)] := by
  have hs : isSorted ((List.range n).map x) = true := by
    rw [isSorted_iff]
    intro i j hij hj
    simp only [List.getElem_map, List.getElem_range]
    rcases Nat.eq_or_lt_of_le hij with rfl | h
    · exact le_refl _
    · exact (hx _ _ h).le
  have hlen : decide (1 < ((List.range n).map x).length) = true := by simp; omega
  have hper : period ((List.range n).map x) = .ok (x (n - 1) - x 0) := by
    have h1 : ((List.range n).map x).getLast? = some (x (n - 1)) := by
      rw [List.getLast?_eq_getElem?]
      simp [List.getElem?_range (show n - 1 < n by omega)]
    have h2 : ((List.range n).map x).head? = some (x 0) := by
      rw [List.head?_eq_getElem?]
      simp [List.getElem?_range (show 0 < n by omega)]
    rw [period, h1, h2]
  have hl : (((List.range n).map x).reverse.drop 1).take 1 = [x (n - 2)] := by
    refine List.ext_getElem (by simp; omega) ?_
    intro i h1 h2
    have : i = 0 := by simpa using h2
    subst this
    simp
    rw [show n - 1 - 1 = n - 2 by omega]
  have hr : (((List.range n).map x).drop 1).take 1 = [x 1] := by
    refine List.ext_getElem (by simp; omega) ?_
    intro i h1 h2
    have : i = 0 := by simpa using h2
    subst this
    simp
  constructor
  · rw [extrapolateLeft, hlen, hs]
    simp only [Res.guardAbort_true, Res.ok_bind, Nat.zero_lt_one, if_true, hper, hl, List.map_cons, List.map_nil,
      List.reverse_cons, List.reverse_nil, List.nil_append]
  · rw [extrapolateRight, hlen, hs]
    simp only [Res.guardAbort_true, Res.ok_bind, Nat.zero_lt_one, if_true, hper, hr, List.map_cons, List.map_nil]

theorem ghostOf_lt {x : Nat → K} (hx : ∀ i j, i < j → x i < x j) (hn : 2 ≤ n) {i : Nat} (hi : i < n + 1) :
    ghostOf x (x (n - 1) - x 0) n i < ghostOf x (x (n - 1) - x 0) n (i + 1) := by
  have h1 := hx (n - 2) (n - 1) (by omega)
  have h2 := hx 0 1 (by omega)
  rw [ghostOf, ghostOf, if_neg (show ¬ i + 1 = 0 by omega)]
  by_cases h0 : i = 0
  · subst h0
    rw [if_pos rfl, if_neg (by omega)]
    simp only [Nat.zero_add, Nat.sub_self]
    linarith
  · rw [if_neg h0, if_neg (by omega)]
    by_cases h3 : i = n
    · subst h3
      rw [if_pos rfl]; linarith
    · rw [if_neg (by omega)]
      exact hx _ _ (by omega)

theorem ghost_list {x : Nat → K} {L : K} (hn : 2 ≤ n) :
    [x (n - 2) - L] ++ (List.range n).map x ++ [x 1 + L] = (List.range (n + 2)).map (ghostOf x L n) := by
  refine List.ext_getElem (by simp) ?_
  intro i h1 h2
  have hi : i < n + 2 := by simpa using h2
  simp only [List.getElem_map, List.getElem_range, ghostOf]
  by_cases h0 : i = 0
  · subst h0; simp
  · by_cases h3 : i = n + 1
    · subst h3
      rw [if_neg (by omega), if_pos rfl, List.getElem_append_right (by simp)]
      simp
    · rw [if_neg h0, if_neg h3, List.getElem_append_left (by simp; omega), List.getElem_append_right (by simp; omega)]
      simp

theorem nonUniform_ok (t : Dim) {x : Nat → K} (hx : ∀ i j, i < j → x i < x j) (hn : 2 ≤ n) (hn2 : n + 2 < 2 ^ 63) :
    ∃ u : NonUniform Dim K, NonUniform.initGhosted t ((List.range n).map x) [x (n - 2) - (x (n - 1) - x 0)]
        [x 1 + (x (n - 1) - x 0)] = .ok (u, seg t 1 (n + 1), seg t 0 (n + 2), seg t 0 1, seg t (n + 1) (n + 2)) ∧
      (∀ i, i < n + 2 → u.coordinate (el t i) = .ok (ghostOf x (x (n - 1) - x 0) n i)) := by
  obtain ⟨L, hL⟩ : ∃ L, L = x (n - 1) - x 0 := ⟨_, rfl⟩
  have hlt : ∀ i, i < n + 1 → ghostOf x L n i < ghostOf x L n (i + 1) := fun i hi => by rw [hL]; exact ghostOf_lt hx hn hi
  rw [← hL]
  have hle : ∀ i j, i ≤ j → j < n + 2 → ghostOf x L n i ≤ ghostOf x L n j := by
    intro i j hij
    induction j, hij using Nat.le_induction with
    | base => intro _; exact le_refl _
    | succ j _ ih => intro hj; exact (ih (by omega)).trans (hlt j (by omega)).le
  have hs : isSorted ([x (n - 2) - L] ++ (List.range n).map x ++ [x 1 + L]) = true := by
    rw [ghost_list hn, isSorted_iff]
    intro i j hij hj
    simp only [List.getElem_map, List.getElem_range]
    exact hle i j hij (by simpa using hj)
  have h1 : ((List.range n).map x).isEmpty = false := by
    rw [List.isEmpty_eq_false_iff]
    intro h
    have := congrArg List.length h
    simp at this; omega
  obtain ⟨d1, d2, d3, d4, d5, d6⟩ := ghost_domains t 1 n 1 (by omega)
  have href : (Elem.createReference t : Elem Dim) = el t 0 := rfl
  refine ⟨⟨(List.range (n + 2)).map (ghostOf x L n), el t 0⟩, ?_, ?_⟩
  · simp only [NonUniform.initGhosted, NonUniform.mk', h1, Bool.not_false, Res.guardAbort_true, Res.ok_bind, hs, if_true, href,
      List.length_map, List.length_range, List.length_cons, List.length_nil, Nat.zero_add]
    rw [← vec, ← vec, d1, Res.ok_bind, d2, Res.ok_bind, d3, Res.ok_bind, d4, Res.ok_bind, d5, Res.ok_bind, d6, Res.ok_bind,
      ghost_list hn, show n + 1 + 1 = n + 2 by omega, show 1 + n = n + 1 by omega]
    rfl
  · intro i hi
    rw [← href, nu_coordinate_ok t _ (by omega) (by simpa using hi)]
    simp

theorem nonUniform_sampler {t : Dim} {u : NonUniform Dim K} {z : Nat → K}
    (h : ∀ i, i < n + 2 → u.coordinate (el t i) = .ok (z i)) {i : Nat} (h1 : 1 ≤ i) (h2 : i < n + 1) :
    (nonUniformSampler u).coordinate (el t i) = .ok (z i) ∧ (nonUniformSampler u).left (el t i) = .ok (z i - z (i - 1)) ∧
      (nonUniformSampler u).right (el t i) = .ok (z (i + 1) - z i) := by
  refine ⟨h i (by omega), ?_, ?_⟩
  · simp only [nonUniformSampler, NonUniform.distanceAtLeft, h i (by omega), Res.ok_bind, subInt_el t h1, h (i - 1) (by omega)]
    rfl
  · simp only [nonUniformSampler, NonUniform.distanceAtRight, h i (by omega), Res.ok_bind, addInt_el t, h (i + 1) (by omega)]
    rfl

end points

end DDC.Heat
