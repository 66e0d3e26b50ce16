import Verif.Model.Quadrature
import Verif.Props.C36
import Verif.Props.C41

/-!
# Quadrature: the steps of the code
-/

namespace DDC

open One

section

variable {K : Type} [Field K] [LinearOrder K]

theorem One.empty_nat {x y : Nat} (hxy : x ≤ y) (hy : y < 2 ^ 64) :
    Dom.empty (seg () x y) = .ok (decide (x = y)) := by
  rw [Dom.empty, seg_size hxy, Res.ok_bind]
  simp only [Res.pure_eq]
  congr 2
  rw [eq_iff_iff]
  constructor
  · intro hz
    have := congrArg BitVec.toNat hz
    rw [BitVec.toNat_ofNat, Nat.mod_eq_of_lt (by omega)] at this
    have h0 : (0 : U64).toNat = 0 := rfl
    omega
  · rintro rfl; simp

theorem Chunk1.restrict_ok {c : Chunk1 K} {N : Nat} (h : c.On N) (hN : N < 2 ^ 63) {x y : Nat} (hxy : x ≤ y)
    (hyN : y ≤ N) : c.restrict (seg () x y) = .ok ⟨seg () x y, ⟨y - x, fun i => c.data.val (x + i)⟩⟩ := by
  rcases Nat.eq_zero_or_pos y with rfl | hy
  · obtain rfl : x = 0 := by omega
    have hb : Dom.back (seg () 0 0) = .ok (el () (2 ^ 64 - 1)) := rfl
    rw [Chunk1.restrict, empty_nat (le_refl _) (by omega), Res.ok_bind, h.1, One.front,
      contains_nat (by omega) (by omega) (by omega), Res.ok_bind, hb, Res.ok_bind,
      contains_nat (by omega) (by omega) (by omega), Res.ok_bind]
    simp only [decide_true, Bool.true_or, Res.guardAbort_true, Res.ok_bind]
    rw [One.front, One.sub_nat () (by omega), Res.ok_bind,
      show Vect.value (vec () (0 - 0)) = .ok (BitVec.ofNat 64 0) from rfl, Res.ok_bind,
      show Elem.addInt (el () (2 ^ 64 - 1)) 1 = .ok (el () 0) from rfl, Res.ok_bind,
      One.sub_nat () (by omega), Res.ok_bind,
      show Vect.value (vec () (0 - 0)) = .ok (BitVec.ofNat 64 0) from rfl, Res.ok_bind]
    simp
  · have hg : (decide (x = y) || (decide (0 ≤ x ∧ x < N) && decide (0 ≤ y - 1 ∧ y - 1 < N))) = true := by
      simp only [Bool.or_eq_true, decide_eq_true_eq, Bool.and_eq_true]
      omega
    rw [Chunk1.restrict, empty_nat hxy (by omega), Res.ok_bind, h.1, One.front,
      contains_nat (by omega) (by omega) (by omega), Res.ok_bind,
      back_nat () hy, Res.ok_bind, contains_nat (by omega) (by omega) (by omega), Res.ok_bind, hg,
      Res.guardAbort_true, Res.ok_bind, One.front, One.sub_nat () (by omega), Res.ok_bind,
      show Vect.value (vec () (x - 0)) = .ok (BitVec.ofNat 64 x) from rfl, Res.ok_bind,
      show (1 : I64) = BitVec.ofNat 64 1 from rfl, One.addInt_el, Res.ok_bind, Nat.sub_add_cancel hy,
      One.sub_nat () (by omega), Res.ok_bind,
      show Vect.value (vec () (y - 0)) = .ok (BitVec.ofNat 64 y) from rfl, Res.ok_bind]
    simp only [BitVec.toNat_ofNat]
    rw [Nat.mod_eq_of_lt (by omega), Nat.mod_eq_of_lt (by omega), if_pos ⟨hxy, by rw [h.2]; exact hyN⟩]

end

namespace Props

open Spec

variable {K : Type} [Field K] [LinearOrder K] [IsStrictOrderedRing K] [FloorRing K]

/-- The values that `ddc::integrals` writes. -/
noncomputable def intVal (per : Bool) (p n : Nat) (t : Nat → K) (i : Nat) : K :=
  if per then (if i < n then (t (i + p + 1) - t i) / ((p + 1 : Nat) : K) else 0) else total t p n i

/-- `ddc::integrals` writes these values, whatever the order of its iterations. -/
def HasIntegrals (bs : BSpl K) (per : Bool) (p n : Nat) (t : Nat → K) : Prop :=
  ∀ sched : List Nat, sched.Perm (List.range (if bs.isUniform then p else if per then n else n + p)) → ∀ N,
    (if per then N = n ∨ N = n + p else N = n + p) → ∀ vals : Chunk1 K, vals.On N →
      ∃ c, bs.integrals sched vals = .ok c ∧ c.On N ∧ ∀ i, i < N → c.data.val i = some (intVal per p n t i)

theorem hasIntegrals_nonUniform {p : Nat} (hp : 0 < p) (per : Bool) {breaks : List K} (hb : GoodBreaks breaks)
    (hs : breaks.length + 3 * p < 2 ^ 31) (hf : SmallFactors p) :
    ∃ u t, NUBS.mk' p per breaks = .ok u ∧ (BSpl.nonUniform u).Is per p (breaks.length - 1) t ∧
      NUBS.KnotsOf p per breaks t ∧ HasIntegrals (BSpl.nonUniform u) per p (breaks.length - 1) t := by
  have h2 := hb.two
  obtain ⟨u, t, e, hper, hu, hk⟩ := NUBS.mk'_is hp per hb.two (by omega) hb.sorted hb.lt
  obtain ⟨g0, g1⟩ := goodEnds hb hk
  refine ⟨u, t, e, BSpl.is_of_nubs hp hb hs hf hper hu hk, hk, fun sched hsched N hN vals hv => ?_⟩
  have hE : Spec.Ends t p (breaks.length - 1) := ⟨hu.mono, by omega, g0, g1⟩
  obtain ⟨c, e1, h1, h3, h4⟩ := nubs_integrals hu (N := N) (by rw [hper]; exact hN)
    (sched := sched.map (BitVec.ofNat 64)) (by rw [hper]; exact hsched.map _) hv
  rw [hper] at h3 h4
  refine ⟨c, e1, h1, fun i hi => ?_⟩
  cases per
  · simp only [Bool.false_eq_true, if_false] at hN h3
    rw [h3 i (by omega), intVal, if_neg (by simp), Spec.total_clamped hE (hk.clamped rfl) (by omega)]
  · simp only [if_true] at hN h3
    rw [intVal, if_pos rfl]
    split_ifs with c
    · exact h3 i c
    · exact h4 i rfl (by omega) hi

theorem hasIntegrals_uniform {p : Nat} (hp : 0 < p) (per : Bool) {a b : K} (hab : a < b) {n : Nat} (hn : 0 < n)
    (hs : n + 1 + 3 * p < 2 ^ 31) (hpn : per = false → p ≤ n) :
    ∃ u, UBS.mk' p per a b (BitVec.ofNat 64 n) = .ok u ∧
      (BSpl.uniform u).Is per p n (Spec.uniformKnot a b n p) ∧
      HasIntegrals (BSpl.uniform u) per p n (Spec.uniformKnot a b n p) := by
  obtain ⟨u, e, hI⟩ := BSpl.is_uniform (K := K) hp per hab hn hs
  have hE := uniform_ends (p := p) hab hn
  refine ⟨u, e, hI, fun sched hsched N hN vals hv => ?_⟩
  cases per
  · simp only [Bool.false_eq_true, if_false] at hN
    subst hN
    obtain ⟨u', e', H⟩ := C36_uniform_partial p hp a b hab n hn (hpn rfl) (by omega) (by omega)
    obtain rfl := Res.ok.inj (e.symm.trans e')
    obtain ⟨c, v, e1, h1, h2, -⟩ := H sched hsched vals hv
    refine ⟨c, e1, h1, fun i hi => ?_⟩
    rw [(h2 i hi).1, intVal, if_neg (by simp),
      IsIntegral.unique hE.mono (le_of_eq (uniformKnot_last hn)) (h2 i hi).2 (isIntegral_total hE b i)]
  · simp only [if_true] at hN
    obtain ⟨u', e', H⟩ := C36_uniform_periodic p hp a b hab n hn (by omega)
    obtain rfl := Res.ok.inj (e.symm.trans e')
    obtain ⟨c, e1, h1, h2⟩ := H sched N hN vals hv
    refine ⟨c, e1, h1, fun i hi => ?_⟩
    rw [intVal, if_pos rfl]
    split_ifs with c
    · obtain ⟨J, hJ, hv⟩ := h2.value
      rw [hv i c]
      have : ∀ j ∈ Finset.range (n + p), (if j % n = i then J j else 0) =
          if j % n = i then Spec.total (Spec.uniformKnot a b n p) p n j else 0 := by
        intro j hj
        rw [IsIntegral.unique hE.mono (le_refl _) (hJ j (Finset.mem_range.1 hj)) (isIntegral_total hE _ j)]
      rw [Finset.sum_congr rfl this, Spec.total_periodic hE uniform_rep (fun j => j % n = i) (fun j => by simp),
        Finset.sum_eq_single i]
      · rw [if_pos (Nat.mod_eq_of_lt c)]
      · intro j hj hji
        rw [if_neg]
        rw [Nat.mod_eq_of_lt (Finset.mem_range.1 hj)]
        exact hji
      · intro hi
        exact absurd (Finset.mem_range.2 c) hi
    · exact h2.zero i (by omega) hi

theorem removeFirst_nat {x y n : Nat} (h : x + n ≤ y) (hy : y - x < 2 ^ 63) :
    Dom.removeFirst (seg () x y) (vec () n) = .ok (seg () (x + n) y) := by
  rw [Dom.removeFirst, One.front, addVec_nat, Res.ok_bind, extents_nat () (by omega), Res.ok_bind, vec, vec,
    vsub_nat () hy (by omega), Res.ok_bind, ← vec, ofSize_nat, show x + n + (y - x - n) = y by omega]

/-- What the three arrays of `quadrature_coefficients` contain, for the weights `w` of the equations. -/
structure QuadArrays (B : Builder K) (p nb a b s : Nat) (w : Nat → K) (q : Chunk1 K × Chunk1 K × Chunk1 K) : Prop where
  dom1 : q.1.dom = seg () (p % 2) (p % 2 + a)
  size1 : q.1.data.size = a
  val1 : ∀ i, i < a → q.1.data.val i = some (w i * B.dx ^ (i + p % 2))
  dom2 : q.2.1.dom = seg () s (s + (nb - a - b))
  size2 : q.2.1.data.size = nb - a - b
  val2 : ∀ i, i < nb - a - b → q.2.1.data.val i = some (w (a + i))
  dom3 : q.2.2.dom = seg () (p % 2) (p % 2 + b)
  size3 : q.2.2.data.size = b
  val3 : ∀ i, i < b → q.2.2.data.val i = some (w (nb - b + i) * B.dx ^ (i + p % 2))

theorem quadrature_ok {bs : BSpl K} {per : Bool} {p n : Nat} {t : Nat → K} {B : Builder K} (hbs : B.bs = bs)
    (h : bs.Is per p n t) (hI : HasIntegrals bs per p n t)
    {nb extra a b s N : Nat} (hnb : nb = if per then n else n + p) (ha : B.lower.values p = a)
    (hb : B.upper.values p = b) (hab : a + b ≤ nb) (hD : B.dom = seg () s (s + N)) {L : Lapack K} {G : Nat → Nat → K}
    (hsz : B.matrix.size = BitVec.ofNat 64 nb)
    (hsolve : SolvesSystem L B.solver nb extra G) {rr : U64} (er : B.matrix.requiredRows = .ok rr)
    (hrr : rr.toNat = nb + extra) {σ : Sched} (hσ : σ.Valid) {sched : List Nat}
    (hsched : sched.Perm (List.range (if bs.isUniform then p else if per then n else n + p))) :
    ∃ q w, B.quadrature L σ sched = .ok q ∧ Solves true nb G w (intVal per p n t) ∧ QuadArrays B p nb a b s w q := by
  subst hbs
  have hsm := h.small
  have hn := h.cells
  have hnb1 : nb ≤ n + p := by split_ifs at hnb <;> omega
  have en : ∀ x, x < 2 ^ 64 → (BitVec.ofNat 64 x).toNat = x := fun x hx => by
    rw [BitVec.toNat_ofNat, Nat.mod_eq_of_lt hx]
  obtain ⟨c, e1, h1, h2⟩ := hI sched hsched (n + p) (by cases per <;> simp) ⟨seg () 0 (n + p), Arr.uninit (n + p)⟩
    ⟨rfl, rfl⟩
  obtain ⟨M1, e2, r1, k1, v1⟩ := forLoop_inv (f := fun i (m : Mat K) => do
      let v ← (⟨nb - 0, fun i => c.data.val (0 + i)⟩ : Arr K).rd i
      m.wr i 0 v)
    (fun i m => m.rows = nb + extra ∧ m.cols = 1 ∧ ∀ k, k < i → m.val k 0 = intVal per p n t k) nb 0 (Mat.zero rr 1)
    ⟨hrr, rfl, by omega⟩ (by
      rintro i m - hi ⟨g1, g2, g3⟩
      refine ⟨m.set i 0 (intVal per p n t i), ?_, g1, g2, fun k hk => ?_⟩
      · rw [Arr.rd_ok (by simpa using hi) (by dsimp only; rw [Nat.zero_add]; exact h2 i (by omega)), Res.ok_bind, Mat.wr_ok (by omega) (by omega)]
      · by_cases hki : k = i
        · subst hki; simp [Mat.set]
        · simp only [Mat.set]; rw [if_neg (by simp [hki])]; exact g3 k (by omega))
  obtain ⟨M2, e3, r2, k2, v2, -⟩ := hsolve σ hσ true 0 M1 (by omega)
  have v2' := v2 0 (by omega)
  simp only [Nat.zero_add] at v2'
  obtain ⟨D, e4, r3, v3⟩ := forLoop_inv (f := fun i (a : Arr K) => do
      let v ← M2.rd i 0
      a.wr i v)
    (fun i a => a.size = nb ∧ ∀ k, k < i → a.val k = some (M2.val k 0)) nb 0
      (⟨nb - 0, fun i => c.data.val (0 + i)⟩ : Arr K) ⟨rfl, by omega⟩ (by
      rintro i d - hi ⟨g1, g2⟩
      refine ⟨d.set i (M2.val i 0), ?_, g1, fun k hk => ?_⟩
      · rw [Mat.rd_ok (by omega) (by omega), Res.ok_bind, Arr.wr_ok (by omega)]
      · rw [Arr.set_val]
        split_ifs with hki
        · rw [hki]
        · exact g2 k (by omega))
  have hOn : (⟨seg () 0 nb, D⟩ : Chunk1 K).On nb := ⟨rfl, r3⟩
  rw [Nat.zero_add] at v3
  refine ⟨?res, fun j => M2.val j 0, ?run, ?sol, ?arr⟩
  case sol =>
    intro i hi
    have := v2' i hi
    dsimp only at this
    rw [v1 i (by omega)] at this
    exact this
  case run =>
    rw [Builder.quadrature, h.full, Res.ok_bind, seg_size (by omega), Res.ok_bind, en _ (by omega), Nat.sub_zero, e1,
      Res.ok_bind, hsz, ve1_eq, One.takeFirst, Res.ok_bind, Chunk1.restrict_ok h1 (by omega) (by omega) (by omega),
      Res.ok_bind]
    dsimp only
    rw [Nat.zero_add, seg_size (by omega), Res.ok_bind, Nat.sub_zero, en nb (by omega), er, Res.ok_bind]
    simp only [Nat.sub_zero] at e2 e4
    rw [e2, Res.ok_bind, hrr, e3, Res.ok_bind, e4, Res.ok_bind, h.degree, ha, hb, ve1_eq, One.takeFirst, Res.ok_bind,
      Chunk1.restrict_ok hOn (by omega) (by omega) (by omega), Res.ok_bind, removeFirst_nat (by omega) (by omega), Res.ok_bind,
      h.nbasis, Res.ok_bind, ← hnb, ofNat_sub (by omega), ofNat_sub (by omega), ve1_eq, One.takeFirst, Res.ok_bind,
      Chunk1.restrict_ok hOn (by omega) (by omega) (by omega), Res.ok_bind]
    dsimp only
    rw [seg_size (by omega), Res.ok_bind, ← BitVec.ofNat_add, ve1_eq, removeFirst_nat (by omega) (by omega), Res.ok_bind,
      ve1_eq, One.takeFirst, Res.ok_bind, Chunk1.restrict_ok hOn (by omega) (by omega) (by omega), Res.ok_bind,
      el1_eq, ofSize_nat, Res.ok_bind, hD, ve1_eq, One.takeFirst, Res.ok_bind, ofSize_nat, Res.ok_bind]
  case arr =>
    refine ⟨rfl, ?_, ?_, ?_, ?_, ?_, rfl, ?_, ?_⟩
    · simp [Builder.scaleBy]
    · intro i hi
      simp only [Builder.scaleBy]
      rw [v3 _ (by omega), Option.map_some, ipow_eq, Nat.zero_add]
    · dsimp only
      rw [show 0 + a + (nb - a - b) - (0 + a) = nb - a - b by omega]
    · dsimp only; omega
    · intro i hi
      dsimp only
      rw [v3 _ (by omega), Nat.zero_add]
    · simp [Builder.scaleBy]
    · intro i hi
      simp only [Builder.scaleBy]
      rw [v3 _ (by omega), Option.map_some, ipow_eq,
        show 0 + (a + (0 + a + (nb - a - b) - (0 + a))) + i = nb - b + i by omega]

end Props

end DDC
