import Verif.Model.SpectralHeat
import Verif.Lemmas.HeatMain
import Verif.Props.C49

/-!
# The heat equation by Fourier transforms
-/

namespace DDC.Spectral

open Tup Spec Props Grid2 Fourier
open One (seg el vec)

set_option linter.unusedSectionVars false

section generic

variable {τ : Type} [DecidableEq τ]

/-- The iterations of a loop over a product of intervals. -/
theorem schedule {tx ty : τ} (hxy : tx ≠ ty) {a b c d : Nat} (h1 : a ≤ b) (h2 : b < 2 ^ 63) (h3 : c ≤ d) (h4 : d < 2 ^ 63)
    {sched : List (List I64)} (hp : sched.Perm (Support.policy [BitVec.ofNat 64 (b - a), BitVec.ofNat 64 (d - c)])) :
    ∃ es : List (Elem τ), es.Nodup ∧ (∀ e, e ∈ es ↔ ∃ i j, a ≤ i ∧ i < b ∧ c ≤ j ∧ j < d ∧ e = pt tx ty i j) ∧
      ∀ (σ : Type) (f : Elem τ → σ → Res σ) (m : σ),
        Support.runSchedule (Dom.support (seg2 tx ty a b c d)) f sched m = es.foldlM (fun m e => f e m) m := by
  have hV := seg2_valid hxy h1 h2 h3 h4
  have hnd : (cart (axes (seg2 tx ty a b c d))).Nodup := nodup_of_lex (lex_axes _)
  have hE : Elements (Dom.support (seg2 tx ty a b c d)) (cart (axes (seg2 tx ty a b c d))) :=
    .contiguous hV hnd (mem_cart_axes hV)
  have hx := (grid_dom hV).extents
  have hlen : ∀ x y : Nat, x ≤ y → y < 2 ^ 63 → (axis (BitVec.ofNat 64 x) (BitVec.ofNat 64 y)).length = y - x := by
    intro x y hxy hy
    rw [length_axis, toNat_small (by omega), toNat_small (by omega)]
  obtain ⟨es, e1, e2⟩ := C19_schedule hE hx (sched := sched) (by
    simp only [axes, seg2, List.map_cons, List.map_nil, vals, hlen a b h1 h2, hlen c d h3 h4]
    exact hp)
  refine ⟨es, e1.nodup_iff.2 hnd, ?_, e2⟩
  intro e
  rw [e1.mem_iff, mem_cart_axes hV]
  constructor
  · rintro ⟨ht, hc⟩
    exact (inBox2 hxy h1 h2 h3 h4 ht).1 ((cart_inBox hV ht).1 ((mem_cart_axes hV e).2 ⟨ht, hc⟩))
  · rintro ⟨i, j, g1, g2, g3, g4, rfl⟩
    have ht : tags (pt tx ty i j) = tags (seg2 tx ty a b c d) := rfl
    exact (mem_cart_axes hV _).1 ((cart_inBox hV ht).2 ((inBox2 hxy h1 h2 h3 h4 rfl).2 ⟨i, j, g1, g2, g3, g4, rfl⟩))

/-- Iterations that each change one element of an array. -/
theorem fold_update {β V : Type} {f : β → (List Nat → V) → Res (List Nat → V)} (key : β → List Nat) (g : β → V → V) (es : List β)
    (hd : es.Nodup) (hinj : ∀ e ∈ es, ∀ e' ∈ es, key e = key e' → e = e')
    (hf : ∀ e ∈ es, ∀ F, f e F = .ok (Function.update F (key e) (g e (F (key e))))) (F : List Nat → V) :
    ∃ F', es.foldlM (fun F e => f e F) F = .ok F' ∧ ∀ e ∈ es, F' (key e) = g e (F (key e)) := by
  suffices h : ∀ (l : List β) (F : List Nat → V), l.Nodup → (∀ e ∈ l, e ∈ es) →
      ∃ F', l.foldlM (fun F e => f e F) F = .ok F' ∧ (∀ e ∈ l, F' (key e) = g e (F (key e))) ∧
        ∀ ks, (∀ e ∈ l, ks ≠ key e) → F' ks = F ks by
    obtain ⟨F', h1, h2, _⟩ := h es F hd (fun _ h => h)
    exact ⟨F', h1, h2⟩
  intro l
  induction l with
  | nil => intro F _ _; exact ⟨F, rfl, by simp, by simp⟩
  | cons e l ih =>
    intro F hnd hl
    obtain ⟨hn1, hn2⟩ := List.nodup_cons.1 hnd
    obtain ⟨F', k1, k2, k3⟩ := ih (Function.update F (key e) (g e (F (key e)))) hn2 (fun x hx => hl x (by simp [hx]))
    have hne : ∀ e' ∈ l, key e' ≠ key e := by
      intro e' he' hk
      have := hinj e' (hl e' (by simp [he'])) e (hl e (by simp)) hk
      exact hn1 (this ▸ he')
    refine ⟨F', by rw [List.foldlM_cons, hf e (hl e (by simp)), Res.ok_bind, k1], ?_, ?_⟩
    · intro e' he'
      rcases List.mem_cons.1 he' with rfl | he'
      · rw [k3 _ (fun x hx h => hne x hx h.symm), Function.update_self]
      · rw [k2 e' he', Function.update_of_ne (hne e' he')]
    · intro ks hks
      rw [k3 ks (fun x hx => hks x (by simp [hx])), Function.update_of_ne (hks e (by simp))]

theorem init_nat {K : Type} [Field K] [LinearOrder K] [IsStrictOrderedRing K] (t : τ) (a b : K) (hab : a < b) (n : Nat) (hn : 1 < n)
    (hn' : n < 2 ^ 63) :
    Uniform.init t a b [(t, BitVec.ofNat 64 n)] = .ok (⟨a, (b - a) / ((n - 1 : Nat) : K), el t 0⟩, seg t 0 n) := by
  obtain ⟨s, hs⟩ : ∃ s, s = (b - a) / ((n - 1 : Nat) : K) := ⟨_, rfl⟩
  have hs0 : 0 < s := by rw [hs]; exact step_pos hab hn
  have h1 : decide (1 < ((n : Nat) : Int)) = true := by simpa using hn
  have h0 : (Elem.createReference t : Elem τ) = el t 0 := rfl
  simp only [Uniform.init, hab, decide_true, Res.guardAbort_true, Vect.value, One.toInt_ofNat hn', h1, Res.ok_bind]
  rw [One.subInt_nat t hn' (by omega), Res.ok_bind]
  simp only [Vect.value, Res.ok_bind, One.toInt_ofNat (show n - 1 < 2 ^ 63 by omega), Int.cast_natCast, ← hs]
  simp only [Uniform.mk', hs0, decide_true, Res.guardAbort_true, Res.ok_bind, h0, Res.pure_eq]
  rw [← vec, One.ofSize_nat]
  simp

theorem removeLast_nat (t : τ) (n : Nat) (hn : n + 1 < 2 ^ 63) :
    Dom.removeLast (seg t 0 (n + 1)) [(t, 1)] = .ok (seg t 0 n) := by
  have e1 : [(t, (1 : I64))] = vec t 1 := rfl
  rw [e1, Dom.removeLast, One.front, One.extents_nat t (by omega), Res.ok_bind, vec, vec, One.vsub_nat t (by omega) (by omega),
    Res.ok_bind, ← vec, One.ofSize_nat]
  congr 2; omega

theorem time_nat (t : τ) (M : Nat) (hM : M + 1 < 2 ^ 63) :
    Dom.removeFirst (seg t 0 (M + 1)) [(t, 1)] = .ok (seg t 1 (M + 1)) ∧
      Dom.size (seg t 1 (M + 1)) = .ok (BitVec.ofNat 64 M) := by
  have e1 : [(t, (1 : I64))] = vec t 1 := rfl
  constructor
  · rw [e1, Dom.removeFirst, One.front, One.addVec_nat, Res.ok_bind, One.extents_nat t (by omega), Res.ok_bind, vec, vec,
      One.vsub_nat t (by omega) (by omega), Res.ok_bind, ← vec, One.ofSize_nat]
    congr 2; omega
  · rw [Dom.size, seg]
    simp [Dom.sizeAux, Dom.extent, Dom.beg, Dom.fin, Tup.select, Tup.ofTuples, Tup.take, BitVec.ofNat_add, Elem.sub, Tup.zipVals,
      TypeSeq.same, TypeSeq.contains]
    exact BitVec.add_sub_cancel _ _

theorem ofDomains_two {tx ty : τ} (hxy : tx ≠ ty) (a b c d : Nat) :
    Dom.ofDomains [tx, ty] [seg tx a b, seg ty c d] = .ok (seg2 tx ty a b c d) := by
  obtain ⟨r, r1, r2, r3⟩ := Dom.ofDomains_ok (qs := [tx, ty]) (ds := [seg tx a b, seg ty c d]) (by simpa using hxy)
    (by simp [seg]) (by
      intro q hq
      exact Dom.ownedOnce_of_perm (ts := [tx, ty]) (es := [seg tx a b, seg ty c d]) (by simpa using hxy) (List.Perm.refl _) q hq)
  rw [r1]
  congr 1
  refine eq_seg2 hxy r2 ?_ ?_
  · rw [r3 tx (by simp) (seg tx a b) (by simp) (by simp [seg]), get_seg]
  · rw [r3 ty (by simp) (seg ty c d) (by simp) (by simp [seg]), get_seg]

theorem select_fst {tx ty : τ} (hxy : tx ≠ ty) (i j : Nat) : Tup.select [tx] (pt tx ty i j) = .ok (el tx i) := by
  simp [Tup.select, ofTuples, take, TypeSeq.contains, TypeSeq.present, pt, el, hxy]

theorem select_snd {tx ty : τ} (hxy : tx ≠ ty) (i j : Nat) : Tup.select [ty] (pt tx ty i j) = .ok (el ty j) := by
  simp [Tup.select, ofTuples, take, TypeSeq.contains, TypeSeq.present, pt, el, hxy, hxy.symm]

end generic

theorem place_pt {tx ty : Dim} (hxy : tx ≠ ty) {n m i j : Nat} (hn : n < 2 ^ 63) (hm : m < 2 ^ 63) (hi : i < n) (hj : j < m) :
    place (seg2 tx ty 0 n 0 m) (pt tx ty i j) = .ok [i, j] := by
  have hnd : (tags (seg2 tx ty 0 n 0 m)).Nodup := by simpa [seg2] using hxy
  obtain ⟨b, b1, b2⟩ := Dom.contains_one (d := seg2 tx ty 0 n 0 m) hnd (e := pt tx ty i j) (List.Perm.refl _)
  have hb : b = true := b2.2 ((inBox2 hxy (by omega) hn (by omega) hm rfl).2 ⟨i, j, by omega, hi, by omega, hj, rfl⟩)
  obtain ⟨v, v1, v2, v3⟩ := Dom.distance_ok (d := seg2 tx ty 0 n 0 m) hnd (es := [pt tx ty i j]) (by
    simp [pt, seg2])
  have g1 := v3 tx _ _ get_seg2_x (pt tx ty i j) (by simp) _ (by rw [pt, get_cons, if_pos rfl])
  have g2 := v3 ty _ _ (get_seg2_y hxy) (pt tx ty i j) (by simp) _ (by
    rw [pt, get_cons, if_neg hxy.symm, get_cons, if_pos rfl])
  have hv : v = [(tx, BitVec.ofNat 64 i - BitVec.ofNat 64 0), (ty, BitVec.ofNat 64 j - BitVec.ofNat 64 0)] := by
    refine ext_get (by rw [v2]; rfl) (by rw [v2]; exact hnd) ?_
    intro q hq
    rw [v2, tags_seg2] at hq
    simp only [List.mem_cons, List.not_mem_nil, or_false] at hq
    rcases hq with rfl | rfl
    · rw [g1, get_cons, if_pos rfl]
    · rw [g2, get_cons, if_neg hxy.symm, get_cons, if_pos rfl]
  rw [place, b1, hb, Res.ok_bind, Res.guardAbort_true, Res.ok_bind, v1, Res.ok_bind, hv]
  simp [toNat_small (show i < 2 ^ 63 by omega), toNat_small (show j < 2 ^ 63 by omega)]

theorem sizes_seg2 {tx ty : Dim} (hxy : tx ≠ ty) {n m : Nat} (hn : n < 2 ^ 63) (hm : m < 2 ^ 63) :
    sizes (seg2 tx ty 0 n 0 m) = [n, m] := by
  show [len tx (seg2 tx ty 0 n 0 m), len ty (seg2 tx ty 0 n 0 m)] = _
  rw [len, len, lo_x (by omega), hi_x hn, lo_y hxy (by omega), hi_y hxy hm, Nat.sub_zero, Nat.sub_zero]

theorem within_two {n m : Nat} {ks : List Nat} : Within [n, m] ks ↔ ∃ k l, k < n ∧ l < m ∧ ks = [k, l] := by
  constructor
  · intro h
    cases h with
    | cons h1 h =>
      cases h with
      | cons h2 h =>
        cases h
        exact ⟨_, _, h1, h2, rfl⟩
  · rintro ⟨k, l, h1, h2, rfl⟩
    exact .cons h1 (.cons h2 .nil)

theorem mesh_nat {n m : Nat} (hn : n < 2 ^ 63) (hm : m < 2 ^ 63) :
    FFT.fourierMesh [.fx, .fy] (seg2 Dim.x Dim.y 0 n 0 m) false = .ok (seg2 .fx .fy 0 n 0 (m / 2 + 1)) := by
  have hxy : Dim.x ≠ Dim.y := by decide
  have hf : Dim.fx ≠ Dim.fy := by decide
  obtain ⟨k, k1, k2, k3, k4, k5⟩ := C49_mesh [.fx, .fy] (seg2 Dim.x Dim.y 0 n 0 m) false
    (seg2_valid hxy (by omega) hn (by omega) hm) (by simp [seg2]) (by simp) rfl
  rw [k1]
  congr 1
  rw [sizes_seg2 hxy hn hm] at k5
  simp only [Bool.false_eq_true, if_false, halfShape] at k5
  rw [sizes, k3] at k5
  simp only [List.map_cons, List.map_nil, List.cons.injEq, and_true] at k5
  have hg : ∀ q ∈ [Dim.fx, Dim.fy], ∀ r, len q k = r → get q k = .ok (BitVec.ofNat 64 0, BitVec.ofNat 64 r) := by
    intro q hq r hr
    obtain ⟨⟨b, e⟩, hb⟩ := get_ok_iff_mem_tags.2 (show q ∈ tags k by rw [k3]; exact hq)
    have hlo : lo q k = b.toNat := by rw [lo, hb]
    have hhi : hi q k = e.toNat := by rw [hi, hb]
    have h0 := k4 q hq
    rw [len, hlo, hhi] at hr
    rw [hlo] at h0
    rw [hb]
    congr 2
    · rw [← h0]; simp
    · rw [← hr, h0]; simp
  exact eq_seg2 hf k3 (hg _ (by simp) _ k5.1) (hg _ (by simp) _ k5.2)

section loop

variable {L : FFT.Library} {u : Dim → Uniform Dim ℝ} {n m : Nat} {fx fy : Periodic Dim ℝ} {wx wy : Nat → ℝ}

/-- What the loop needs to know. -/
structure Ready (L : FFT.Library) (u : Dim → Uniform Dim ℝ) (n m : Nat) (fx fy : Periodic Dim ℝ) (wx wy : Nat → ℝ) : Prop where
  exact : Library.Exact L 2
  mesh : UniformMesh u 1 (seg2 Dim.x Dim.y 0 n 0 m)
  n2 : 2 ≤ n
  m2 : 2 ≤ m
  nb : n < 2 ^ 63
  mb : m < 2 ^ 63
  cx : ∀ k, k < n → fx.coordinate (el .fx k) = .ok (wx k)
  cy : ∀ l, l < m → fy.coordinate (el .fy l) = .ok (wy l)
  sx : ∀ k, k < n → wx ((n - k) % n) * wx ((n - k) % n) = wx k * wx k
  sy : ∀ l, l < m → wy ((m - l) % m) * wy ((m - l) % m) = wy l * wy l

/-- The factor of a mode. -/
def lam (kx ky dt : ℝ) (wx wy : Nat → ℝ) : List Nat → ℝ
  | [k, l] => 1 - (kx * wx k * wx k + ky * wy l * wy l) * dt
  | _ => 1

theorem round_ok (R : Ready L u n m fx fy wx wy) (kx ky dt : ℝ) {order : List (List I64)}
    (ho : order.Perm (Support.policy [BitVec.ofNat 64 n, BitVec.ofNat 64 (m / 2 + 1)])) (last : List Nat → ℝ) :
    ∃ F F' next, FFT.fftR L u (seg2 .fx .fy 0 n 0 (m / 2 + 1)) (seg2 .x .y 0 n 0 m) .backward last = .ok F ∧
      Support.runSchedule (Dom.support (seg2 .fx .fy 0 n 0 (m / 2 + 1)))
        (kernel kx ky dt fx fy (seg2 .fx .fy 0 n 0 (m / 2 + 1))) order F = .ok F' ∧
      FFT.ifftR L u (seg2 .x .y 0 n 0 m) (seg2 .fx .fy 0 n 0 (m / 2 + 1)) .backward F' = .ok next ∧
      ∀ ks, Within [n, m] ks →
        dft (-1) [n, m] (fun xs => (next xs : ℂ)) ks = lam kx ky dt wx wy ks * dft (-1) [n, m] (fun xs => (last xs : ℂ)) ks := by
  have hxy : Dim.x ≠ Dim.y := by decide
  have hf : Dim.fx ≠ Dim.fy := by decide
  have hn2 := R.n2
  have hm2 := R.m2
  have hnb := R.nb
  have hmb := R.mb
  have hsx := sizes_seg2 hxy hnb hmb
  have hsk := sizes_seg2 (n := n) (m := m / 2 + 1) hf hnb (by omega)
  have hvk := seg2_valid hf (a := 0) (b := n) (c := 0) (d := m / 2 + 1) (by omega) hnb (by omega) (by omega)
  have hh : sizes (seg2 Dim.fx Dim.fy 0 n 0 (m / 2 + 1)) = halfShape (sizes (seg2 Dim.x Dim.y 0 n 0 m)) := by
    rw [hsx, hsk]; rfl
  obtain ⟨F, f1, f2⟩ := C49_rfft L u (seg2 .x .y 0 n 0 m) (seg2 .fx .fy 0 n 0 (m / 2 + 1)) .backward R.exact
    (by simpa using R.mesh) hvk hh rfl last
  obtain ⟨es, e1, e2, e3⟩ := schedule hf (a := 0) (b := n) (c := 0) (d := m / 2 + 1) (by omega) hnb (by omega) (by omega)
    (sched := order) (by simpa using ho)
  have hidx : ∀ k l, k < 2 ^ 63 → l < 2 ^ 63 → idx Dim.fx (pt Dim.fx Dim.fy k l) = k ∧ idx Dim.fy (pt Dim.fx Dim.fy k l) = l := by
    intro i j hi hj
    constructor
    · rw [idx, pt, get_cons, if_pos rfl]; exact toNat_small hi
    · rw [idx, pt, get_cons, if_neg (by decide), get_cons, if_pos rfl]; exact toNat_small hj
  obtain ⟨F', g1, g2⟩ := fold_update (f := kernel kx ky dt fx fy (seg2 .fx .fy 0 n 0 (m / 2 + 1)))
    (fun e => [idx Dim.fx e, idx Dim.fy e])
    (fun e z => z * ((lam kx ky dt wx wy [idx Dim.fx e, idx Dim.fy e] : ℝ) : ℂ)) es e1
    (by
      intro e he e' he' h
      obtain ⟨i, j, h1, h2, h3, h4, rfl⟩ := (e2 e).1 he
      obtain ⟨i', j', h1', h2', h3', h4', rfl⟩ := (e2 e').1 he'
      obtain ⟨a1, a2⟩ := hidx i j (by omega) (by omega)
      obtain ⟨b1, b2⟩ := hidx i' j' (by omega) (by omega)
      rw [a1, a2, b1, b2] at h
      simp only [List.cons.injEq, and_true] at h
      obtain ⟨rfl, rfl⟩ := h
      rfl)
    (by
      intro e he G
      obtain ⟨i, j, h1, h2, h3, h4, rfl⟩ := (e2 e).1 he
      obtain ⟨a1, a2⟩ := hidx i j (by omega) (by omega)
      rw [a1, a2, kernel, select_fst hf, Res.ok_bind, select_snd hf, Res.ok_bind, R.cx i h2, Res.ok_bind, R.cy j (by omega),
        Res.ok_bind, place_pt hf hnb (by omega) h2 h4, Res.ok_bind]
      rfl) F
  have hlamneg : ∀ ks, Within [n, m] ks → lam kx ky dt wx wy (neg [n, m] ks) = lam kx ky dt wx wy ks := by
    intro ks hk
    obtain ⟨k, l, h1, h2, rfl⟩ := within_two.1 hk
    simp only [neg, lam]
    have a := R.sx k h1
    have b := R.sy l h2
    rw [show kx * wx ((n - k) % n) * wx ((n - k) % n) = kx * (wx ((n - k) % n) * wx ((n - k) % n)) by ring, a,
      show ky * wy ((m - l) % m) * wy ((m - l) % m) = ky * (wy ((m - l) % m) * wy ((m - l) % m)) by ring, b]
    ring
  obtain ⟨X, hX⟩ : ∃ X : List Nat → ℂ, X = fun ks => (lam kx ky dt wx wy ks : ℂ) * dft (-1) [n, m] (fun xs => (last xs : ℂ)) ks :=
    ⟨_, rfl⟩
  have hHerm : Hermitian [n, m] X := by
    intro ks hk
    rw [hX]
    simp only
    rw [hermitian_dft (Or.inr rfl) [n, m] last ks hk, hlamneg ks hk, map_mul, Complex.conj_ofReal]
  rw [hsx] at f2
  obtain ⟨next, n1, n2⟩ := C49_irfft L u (seg2 .x .y 0 n 0 m) (seg2 .fx .fy 0 n 0 (m / 2 + 1)) .backward R.exact
    (by simpa using R.mesh) hvk hh rfl F' X (by rw [hsx]; exact hHerm) (by
      rw [hsx]
      intro ks hk
      obtain ⟨k, l, h1, h2, rfl⟩ := within_two.1 (show Within [n, m / 2 + 1] ks from hk)
      have hG := g2 (pt Dim.fx Dim.fy k l) ((e2 _).2 ⟨k, l, by omega, h1, by omega, h2, rfl⟩)
      obtain ⟨a1, a2⟩ := hidx k l (by omega) (by omega)
      simp only [a1, a2] at hG
      rw [hG, f2 _ hk, hX]
      simp only [forwardFactor, Complex.ofReal_one, one_mul]
      ring)
  refine ⟨F, F', next, f1, by rw [e3, g1], n1, ?_⟩
  intro ks hk
  rw [hsx] at n2
  rw [dft_congr (g := fun xs => ((1 / (n * m : ℝ) : ℝ) : ℂ) * dft 1 [n, m] X xs) (by
    intro xs hxs
    rw [n2 xs hxs, backwardFactor, card_seg2 hxy (by omega) hnb (by omega) hmb]
    push_cast
    simp), dft_mul, dft_dft (Or.inl rfl) [n, m] X hk, hX]
  have h1 : (n : ℂ) ≠ 0 := by exact_mod_cast (by omega : n ≠ 0)
  have h2 : (m : ℂ) ≠ 0 := by exact_mod_cast (by omega : m ≠ 0)
  simp only [List.prod_cons, List.prod_nil, mul_one]
  push_cast
  field_simp

theorem timeLoop_ok (R : Ready L u n m fx fy wx wy) (kx ky dt : ℝ) {orders : Nat → List (List I64)}
    (ho : ∀ k, (orders k).Perm (Support.policy [BitVec.ofNat 64 n, BitVec.ofNat 64 (m / 2 + 1)])) (M i : Nat)
    (last : List Nat → ℝ) :
    ∃ r, timeLoop L u kx ky dt fx fy (seg2 .x .y 0 n 0 m) (seg2 .fx .fy 0 n 0 (m / 2 + 1)) orders M i last = .ok r ∧
      ∀ ks, Within [n, m] ks → dft (-1) [n, m] (fun xs => (r xs : ℂ)) ks =
        (lam kx ky dt wx wy ks : ℂ) ^ M * dft (-1) [n, m] (fun xs => (last xs : ℂ)) ks := by
  induction M generalizing i last with
  | zero => exact ⟨last, rfl, fun ks _ => by rw [pow_zero, one_mul]⟩
  | succ M ih =>
    obtain ⟨F, F', next, h1, h2, h3, h4⟩ := round_ok R kx ky dt (ho i) last
    obtain ⟨r, r1, r2⟩ := ih (i + 1) next
    refine ⟨r, ?_, ?_⟩
    · rw [timeLoop, h1, Res.ok_bind, h2, Res.ok_bind, h3, Res.ok_bind, r1]
    · intro ks hk
      rw [r2 ks hk, h4 ks hk]; ring

end loop

theorem initial_ok {n m : Nat} (hn : n < 2 ^ 63) (hm : m < 2 ^ 63) {ux uy : Uniform Dim ℝ} {xs ys : Nat → ℝ}
    (hX : ∀ i, i < n → ux.coordinate (el Dim.x i) = .ok (xs i)) (hY : ∀ j, j < m → uy.coordinate (el Dim.y j) = .ok (ys j))
    (temp : ℝ → ℝ → ℝ) (junk : List Nat → ℝ) {order : List (List I64)}
    (ho : order.Perm (Support.policy [BitVec.ofNat 64 n, BitVec.ofNat 64 m])) :
    ∃ f, Support.runSchedule (Dom.support (seg2 .x .y 0 n 0 m)) (initial ux uy temp (seg2 .x .y 0 n 0 m)) order junk = .ok f ∧
      ∀ i j, i < n → j < m → f [i, j] = temp (xs i) (ys j) := by
  have hxy : Dim.x ≠ Dim.y := by decide
  obtain ⟨es, e1, e2, e3⟩ := schedule hxy (a := 0) (b := n) (c := 0) (d := m) (by omega) hn (by omega) hm
    (sched := order) (by simpa using ho)
  have hidx : ∀ k l, k < 2 ^ 63 → l < 2 ^ 63 → idx Dim.x (pt Dim.x Dim.y k l) = k ∧ idx Dim.y (pt Dim.x Dim.y k l) = l := by
    intro i j hi hj
    constructor
    · rw [idx, pt, get_cons, if_pos rfl]; exact toNat_small hi
    · rw [idx, pt, get_cons, if_neg (by decide), get_cons, if_pos rfl]; exact toNat_small hj
  obtain ⟨F', g1, g2⟩ := fold_update (f := initial ux uy temp (seg2 .x .y 0 n 0 m))
    (fun e => [idx Dim.x e, idx Dim.y e]) (fun e _ => temp (xs (idx Dim.x e)) (ys (idx Dim.y e))) es e1
    (by
      intro e he e' he' h
      obtain ⟨i, j, h1, h2, h3, h4, rfl⟩ := (e2 e).1 he
      obtain ⟨i', j', h1', h2', h3', h4', rfl⟩ := (e2 e').1 he'
      obtain ⟨a1, a2⟩ := hidx i j (by omega) (by omega)
      obtain ⟨b1, b2⟩ := hidx i' j' (by omega) (by omega)
      rw [a1, a2, b1, b2] at h
      simp only [List.cons.injEq, and_true] at h
      obtain ⟨rfl, rfl⟩ := h
      rfl)
    (by
      intro e he G
      obtain ⟨i, j, h1, h2, h3, h4, rfl⟩ := (e2 e).1 he
      obtain ⟨a1, a2⟩ := hidx i j (by omega) (by omega)
      rw [a1, a2, initial, select_fst hxy, Res.ok_bind, hX i h2, Res.ok_bind, select_snd hxy, Res.ok_bind, hY j h4,
        Res.ok_bind, place_pt hxy hn hm h2 h4, Res.ok_bind]) junk
  refine ⟨F', by rw [e3, g1], ?_⟩
  intro i j hi hj
  have hG := g2 (pt Dim.x Dim.y i j) ((e2 _).2 ⟨i, j, by omega, hi, by omega, hj, rfl⟩)
  obtain ⟨a1, a2⟩ := hidx i j (by omega) (by omega)
  simpa only [a1, a2] using hG

end DDC.Spectral
