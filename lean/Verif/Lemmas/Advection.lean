import Verif.Model.Advection
import Verif.Lemmas.Spectral
import Verif.Props.C41f
import Verif.Props.C42

/-!
# The advection by characteristics
-/

namespace DDC.Advection

open Tup Spec Props Grid2 Builder Eval
open One (seg el vec)

set_option linter.unusedSectionVars false

theorem name_seg (t : Dim) (a b : Nat) : name t (seg () a b) = seg t a b := rfl

theorem unname_el (t : Dim) (i : Nat) : unname (el t i) = el () i := rfl

theorem place_at {n m i j : Nat} (hn : n < 2 ^ 63) (hm : m < 2 ^ 63) (hi : i < n) (hj : j < m) :
    place (seg2 .x .y 0 n 0 m) (pt .x .y i j) = .ok (i, j) := by
  have hxy : Dim.x ≠ Dim.y := by decide
  have hnd : (tags (seg2 Dim.x Dim.y 0 n 0 m)).Nodup := by simp [seg2]
  obtain ⟨b, b1, b2⟩ := Dom.contains_one (d := seg2 Dim.x Dim.y 0 n 0 m) hnd (e := pt .x .y i j) (List.Perm.refl _)
  have hb : b = true := b2.2 ((inBox2 hxy (by omega) hn (by omega) hm rfl).2 ⟨i, j, by omega, hi, by omega, hj, rfl⟩)
  obtain ⟨v, v1, v2, v3⟩ := Dom.distance_ok (d := seg2 Dim.x Dim.y 0 n 0 m) hnd (es := [pt .x .y i j]) (by
    simp [pt, seg2])
  have g1 := v3 .x _ _ get_seg2_x (pt .x .y i j) (by simp) _ (by rw [pt, get_cons, if_pos rfl])
  have g2 := v3 .y _ _ (get_seg2_y hxy) (pt .x .y i j) (by simp) _ (by
    rw [pt, get_cons, if_neg hxy.symm, get_cons, if_pos rfl])
  have hv : v = [(Dim.x, BitVec.ofNat 64 i - BitVec.ofNat 64 0), (Dim.y, BitVec.ofNat 64 j - BitVec.ofNat 64 0)] := by
    refine ext_get (by rw [v2]; rfl) (by rw [v2]; exact hnd) ?_
    intro q hq
    rw [v2, tags_seg2] at hq
    simp only [List.mem_cons, List.not_mem_nil, or_false] at hq
    rcases hq with rfl | rfl
    · rw [g1, get_cons, if_pos rfl]
    · rw [g2, get_cons, if_neg hxy.symm, get_cons, if_pos rfl]
  rw [place, b1, hb, Res.ok_bind, Res.guardAbort_true, Res.ok_bind, v1, Res.ok_bind, hv]
  simp [toNat_small (show i < 2 ^ 63 by omega), toNat_small (show j < 2 ^ 63 by omega)]

section

variable {K : Type} [Field K] [LinearOrder K] [IsStrictOrderedRing K] [FloorRing K]

/-- Iterations that each write one element of an array. -/
theorem fold_wr {β : Type} {N M : Nat} {f : β → Mat K → Res (Mat K)} (row col : β → Nat) (g : β → K) (es : List β)
    (hinj : ∀ e ∈ es, ∀ e' ∈ es, row e = row e' → col e = col e' → g e = g e')
    (hin : ∀ e ∈ es, row e < N ∧ col e < M)
    (hf : ∀ e ∈ es, ∀ F : Mat K, f e F = F.wr (row e) (col e) (g e)) (F : Mat K) (hr : F.rows = N) (hc : F.cols = M) :
    ∃ F', es.foldlM (fun F e => f e F) F = .ok F' ∧ F'.rows = N ∧ F'.cols = M ∧ ∀ e ∈ es, F'.val (row e) (col e) = g e := by
  suffices h : ∀ (l done : List β) (F : Mat K), (∀ e ∈ l, e ∈ es) → (∀ e ∈ done, e ∈ es) → F.rows = N → F.cols = M →
      (∀ e ∈ done, F.val (row e) (col e) = g e) →
      ∃ F', l.foldlM (fun F e => f e F) F = .ok F' ∧ F'.rows = N ∧ F'.cols = M ∧
        (∀ e ∈ done, F'.val (row e) (col e) = g e) ∧ ∀ e ∈ l, F'.val (row e) (col e) = g e by
    obtain ⟨F', h1, h2, h3, -, h4⟩ := h es [] F (fun _ h => h) (by simp) hr hc (by simp)
    exact ⟨F', h1, h2, h3, h4⟩
  intro l
  induction l with
  | nil => intro done F _ _ h1 h2 h3; exact ⟨F, rfl, h1, h2, h3, by simp⟩
  | cons e l ih =>
    intro done F hl hd h1 h2 h3
    have he := hl e (by simp)
    obtain ⟨F', k1, k2, k3, k4, k5⟩ := ih (e :: done)
      ⟨F.rows, F.cols, fun k l => if k = row e ∧ l = col e then g e else F.val k l⟩ (fun x hx => hl x (by simp [hx]))
      (by
        intro x hx
        rcases List.mem_cons.1 hx with rfl | hx
        · exact he
        · exact hd x hx) h1 h2 (by
        intro x hx
        dsimp only
        split
        · rename_i h
          rcases List.mem_cons.1 hx with rfl | hx
          · rfl
          · exact hinj e he x (hd x hx) h.1.symm h.2.symm
        · rename_i h
          rcases List.mem_cons.1 hx with rfl | hx
          · exact absurd ⟨rfl, rfl⟩ h
          · exact h3 x hx)
    refine ⟨F', ?_, k2, k3, fun x hx => k4 x (by simp [hx]), ?_⟩
    · rw [List.foldlM_cons, hf e he, Mat.wr, if_pos (by rw [h1, h2]; exact hin e he), Res.ok_bind, k1]
    · intro x hx
      rcases List.mem_cons.1 hx with rfl | hx
      · exact k4 x (by simp)
      · exact k5 x hx

/-- A loop over the mesh that writes an element of an array at each iteration. -/
theorem loop_ok {N M : Nat} (hN : N < 2 ^ 63) (hM : M < 2 ^ 63) {f : Elem Dim → Mat K → Res (Mat K)} {g : Nat → Nat → K}
    (hf : ∀ i j, i < N → j < M → ∀ F : Mat K, f (pt .x .y i j) F = F.wr i j (g i j)) {order : List (List I64)}
    (ho : order.Perm (Support.policy [BitVec.ofNat 64 N, BitVec.ofNat 64 M])) (F : Mat K) (hr : F.rows = N) (hc : F.cols = M) :
    ∃ F', Support.runSchedule (Dom.support (seg2 .x .y 0 N 0 M)) f order F = .ok F' ∧ F'.rows = N ∧ F'.cols = M ∧
      ∀ i j, i < N → j < M → F'.val i j = g i j := by
  have hxy : Dim.x ≠ Dim.y := by decide
  obtain ⟨es, -, e2, e3⟩ := Spectral.schedule hxy (a := 0) (b := N) (c := 0) (d := M) (by omega) hN (by omega) hM
    (sched := order) (by simpa using ho)
  have hidx : ∀ k l, k < 2 ^ 63 → l < 2 ^ 63 → idx Dim.x (pt Dim.x Dim.y k l) = k ∧ idx Dim.y (pt Dim.x Dim.y k l) = l := by
    intro i j hi hj
    constructor
    · rw [idx, pt, get_cons, if_pos rfl]; exact toNat_small hi
    · rw [idx, pt, get_cons, if_neg (by decide), get_cons, if_pos rfl]; exact toNat_small hj
  obtain ⟨F', h1, h2, h3, h4⟩ := fold_wr (f := f) (N := N) (M := M) (idx Dim.x) (idx Dim.y) (fun e => g (idx Dim.x e) (idx Dim.y e)) es
    (fun e _ e' _ p q => by rw [p, q])
    (by
      intro e he
      obtain ⟨i, j, a1, a2, a3, a4, rfl⟩ := (e2 e).1 he
      obtain ⟨b1, b2⟩ := hidx i j (by omega) (by omega)
      rw [b1, b2]; exact ⟨a2, a4⟩)
    (by
      intro e he F
      obtain ⟨i, j, a1, a2, a3, a4, rfl⟩ := (e2 e).1 he
      obtain ⟨b1, b2⟩ := hidx i j (by omega) (by omega)
      rw [b1, b2]; exact hf i j a2 a4 F) F hr hc
  refine ⟨F', by rw [e3, h1], h2, h3, ?_⟩
  intro i j hi hj
  have := h4 (pt .x .y i j) ((e2 _).2 ⟨i, j, by omega, hi, by omega, hj, rfl⟩)
  obtain ⟨b1, b2⟩ := hidx i j (by omega) (by omega)
  simpa only [b1, b2] using this

theorem initial_ok {N M : Nat} (hN : N < 2 ^ 63) (hM : M < 2 ^ 63) {coord : Elem Unit → Res K} {uy : Uniform Dim K} {xs ys : Nat → K}
    (hX : ∀ i, i < N → coord (el () i) = .ok (xs i)) (hY : ∀ j, j < M → uy.coordinate (el Dim.y j) = .ok (ys j))
    (density : K → K → K) {order : List (List I64)} (ho : order.Perm (Support.policy [BitVec.ofNat 64 N, BitVec.ofNat 64 M]))
    (F : Mat K) (hr : F.rows = N) (hc : F.cols = M) :
    ∃ F', Support.runSchedule (Dom.support (seg2 .x .y 0 N 0 M)) (initial coord uy density (seg2 .x .y 0 N 0 M)) order F = .ok F' ∧
      F'.rows = N ∧ F'.cols = M ∧ ∀ i j, i < N → j < M → F'.val i j = density (xs i) (ys j) := by
  have hxy : Dim.x ≠ Dim.y := by decide
  refine loop_ok hN hM (fun i j hi hj F => ?_) ho F hr hc
  rw [initial, Spectral.select_fst hxy, Res.ok_bind, unname_el, hX i hi, Res.ok_bind, Spectral.select_snd hxy, Res.ok_bind, hY j hj,
    Res.ok_bind, place_at hN hM hi hj, Res.ok_bind]

theorem feet_ok {N M : Nat} (hN : N < 2 ^ 63) (hM : M < 2 ^ 63) {coord : Elem Unit → Res K} {xs : Nat → K}
    (hX : ∀ i, i < N → coord (el () i) = .ok (xs i)) (vx dt : K) {order : List (List I64)}
    (ho : order.Perm (Support.policy [BitVec.ofNat 64 N, BitVec.ofNat 64 M])) (F : Mat K) (hr : F.rows = N) (hc : F.cols = M) :
    ∃ F', Support.runSchedule (Dom.support (seg2 .x .y 0 N 0 M)) (foot coord vx dt (seg2 .x .y 0 N 0 M)) order F = .ok F' ∧
      F'.rows = N ∧ F'.cols = M ∧ ∀ i j, i < N → j < M → F'.val i j = xs i - vx * dt := by
  have hxy : Dim.x ≠ Dim.y := by decide
  refine loop_ok hN hM (fun i j hi hj F => ?_) ho F hr hc
  rw [foot, Spectral.select_fst hxy, Res.ok_bind, unname_el, hX i hi, Res.ok_bind, place_at hN hM hi hj, Res.ok_bind]

/-- What the loop needs to know of the builder: the coefficients of each line have the property `Q`. -/
def Builds (L : Lapack K) (B : Builder K) (R N : Nat) (Q : (Nat → K) → (Nat → K) → Prop) : Prop :=
  ∀ (σ : Sched) (_ : σ.Valid) (junk : Nat → Nat → K) (spline vals : Mat K), spline.rows = R → vals.rows = N →
    vals.cols = spline.cols → ∃ c, B.apply L σ junk spline vals none none = .ok c ∧ c.rows = R ∧ c.cols = spline.cols ∧
      ∀ j, j < spline.cols → Q (fun k => vals.val k j) fun J => c.val J j

theorem timeLoop_ok {L : Lapack K} {B : Builder K} {s : Side K} {coord : Elem Unit → Res K} {vx dt : K} {R N M : Nat} {xs : Nat → K}
    {Q P : (Nat → K) → (Nat → K) → Prop} (hN : N < 2 ^ 63) (hM : M < 2 ^ 63) (hX : ∀ i, i < N → coord (el () i) = .ok (xs i))
    (hB : Builds L B R N Q)
    (hE : ∀ (last : Nat → K) (c : Mat K) (j : Nat), c.rows = R → c.cols = M → j < M → Q last (fun J => c.val J j) →
      ∃ f : Nat → K, (∀ i, i < N → eval1 s (xs i - vx * dt) (column c j) = .ok (f i)) ∧
        ∀ g : Nat → K, (∀ i, i < N → g i = f i) → P last g)
    {rounds : Nat → Round K} (hord : ∀ k, (rounds k).order.Perm (Support.policy [BitVec.ofNat 64 N, BitVec.ofNat 64 M]))
    (hb : ∀ k, (rounds k).build.Valid) (he : ∀ k, (rounds k).eval.Valid) (T i : Nat) (last next coef feet : Mat K)
    (h1 : last.rows = N ∧ last.cols = M) (h2 : next.rows = N ∧ next.cols = M) (h3 : coef.rows = R ∧ coef.cols = M)
    (h4 : feet.rows = N ∧ feet.cols = M) :
    ∃ d : Nat → Nat → Nat → K, ∃ r : Mat K,
      timeLoop L B s coord vx dt (seg2 .x .y 0 N 0 M) rounds T i last next coef feet = .ok r ∧ r.rows = N ∧ r.cols = M ∧
      d 0 = last.val ∧ r.val = d T ∧ ∀ k, k < T → ∀ j, j < M → P (fun x => d k x j) fun x => d (k + 1) x j := by
  induction T generalizing i last next coef feet with
  | zero => exact ⟨fun _ => last.val, last, rfl, h1.1, h1.2, rfl, rfl, by simp⟩
  | succ T ih =>
    obtain ⟨feet', f1, f2, f3, f4⟩ := feet_ok hN hM hX vx dt (hord i) feet h4.1 h4.2
    obtain ⟨c, c1, c2, c3, c4⟩ := hB _ (hb i) (rounds i).junk coef last h3.1 h1.1 (by rw [h1.2, h3.2])
    rw [h3.2] at c3 c4
    have hf : ∀ j, ∃ f : Nat → K, j < M → (∀ i, i < N → eval1 s (xs i - vx * dt) (column c j) = .ok (f i)) ∧
        ∀ g : Nat → K, (∀ i, i < N → g i = f i) → P (fun k => last.val k j) g := by
      intro j
      by_cases hj : j < M
      · obtain ⟨f, a1, a2⟩ := hE _ c j c2 c3 hj (c4 j hj)
        exact ⟨f, fun _ => ⟨a1, a2⟩⟩
      · exact ⟨fun _ => 0, fun h => absurd h hj⟩
    choose f hf using hf
    obtain ⟨next', n1, n2, n3, n4⟩ := C42_mesh (he i) (s := s) (coords := feet') (coef := c) (out := next)
      (by rw [f2, h2.1]) (by rw [f3, h2.2]) (f := fun i j => f j i) (by
        intro i j hi hj
        rw [h2.1] at hi
        rw [h2.2] at hj
        rw [f4 i j hi hj]
        exact (hf j hj).1 i hi)
    rw [h2.1] at n2 n4
    rw [h2.2] at n3 n4
    obtain ⟨d, r, r1, r2, r3, r4, r5, r6⟩ := ih (i + 1) next' last c feet' ⟨n2, n3⟩ h1 ⟨c2, c3⟩ ⟨f2, f3⟩
    refine ⟨fun k => if k = 0 then last.val else d (k - 1), r, ?_, r2, r3, rfl, ?_, ?_⟩
    · rw [timeLoop, f1, Res.ok_bind, c1, Res.ok_bind, n1, Res.ok_bind, r1]
    · simpa using r5
    · intro k hk j hj
      rcases Nat.eq_zero_or_pos k with rfl | hk0
      · simp only [if_true, Nat.zero_add, one_ne_zero, if_false, Nat.sub_self]
        refine (hf j hj).2 _ fun i hi => ?_
        rw [r4]
        exact n4 i j hi hj
      · obtain ⟨k, rfl⟩ : ∃ k', k = k' + 1 := ⟨k - 1, by omega⟩
        simpa using r6 k (by omega) j hj

end

end DDC.Advection
