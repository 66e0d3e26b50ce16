import Verif.Props.C42
import Verif.Props.C43

/-!
# C55: `integrate`

The evaluators' `integrate` writes, for each element of the batch domain, the exact integral of the spline: the
iterated integral, in any number of dimensions, whatever the order of the iterations of the parallel loops.

* `C55_sum`: the sum that is computed.
* `C55_integrate_partial`: it is the integral.  Missing: uniform B-splines that are not periodic with fewer cells than the
  degree, for which `ddc::integrals` is wrong (`C36_few_cells`).
-/

set_option linter.unusedSectionVars false

namespace DDC.Props

open One Dom Spec Builder Eval Polynomial

variable {K : Type} [Field K] [LinearOrder K] [IsStrictOrderedRing K]

/-- Specification: `I` is the iterated integral of `f` over the domain: the integral on the first variable of the
integrals on the other ones. -/
def IsIterated : List (Desc K) → (List K → K) → K → Prop
  | [], f, I => I = f []
  | d :: ds, f, I => ∃ g : K → K, (∀ x, IsIterated ds (fun l => f (x :: l)) (g x)) ∧
      IsIntegralOf d.t d.b d.p (d.p + d.n) g I

theorem tensor_sum (ws : List (Nat × (Nat → K))) (m : Nat) (a : Nat → K) (c : Nat → List Nat → K) :
    tensor ws (fun l => ∑ J ∈ Finset.range m, a J * c J l) = ∑ J ∈ Finset.range m, a J * tensor ws (c J) := by
  induction ws generalizing c with
  | nil => rfl
  | cons w ws ih =>
    obtain ⟨size, w⟩ := w
    simp only [tensor]
    simp only [ih fun J' l => c J' (_ :: l), Finset.mul_sum]
    rw [Finset.sum_comm]
    exact Finset.sum_congr rfl fun i _ => Finset.sum_congr rfl fun j _ => by ring

/-- The iterated integral of a tensor product of splines. -/
theorem isIterated_tensor (ds : List (Desc K)) (h : ∀ d ∈ ds, Ends d.t d.p d.n) (c : List Nat → K) :
    IsIterated ds (fun l => tensor (List.zipWith Desc.weights ds l) c)
      (tensor (ds.map fun d => (d.n + d.p, total d.t d.p d.n)) c) := by
  induction ds generalizing c with
  | nil => rfl
  | cons d ds ih =>
    refine ⟨fun x => tensor (ds.map fun d => (d.n + d.p, total d.t d.p d.n))
      fun l => ∑ J ∈ Finset.range (d.n + d.p), bspline d.t d.b d.p J x * c (J :: l), fun x => ?_, ?_⟩
    · have := ih (fun d hd => h d (List.mem_cons_of_mem _ hd))
        fun l => ∑ J ∈ Finset.range (d.n + d.p), bspline d.t d.b d.p J x * c (J :: l)
      simp only [List.zipWith_cons_cons, tensor, Desc.weights]
      simp only [tensor_sum] at this ⊢
      exact this
    · have := isIntegralOf_spline (h d List.mem_cons_self)
        fun J => tensor (ds.map fun d => (d.n + d.p, total d.t d.p d.n)) fun l => c (J :: l)
      simp only [tensor_sum, List.map_cons, tensor]
      have e : (fun x => ∑ J ∈ Finset.range (d.n + d.p), bspline d.t d.b d.p J x *
          tensor (ds.map fun d => (d.n + d.p, total d.t d.p d.n)) fun l => c (J :: l)) =
          splineValue d.t d.p d.n fun J => tensor (ds.map fun d => (d.n + d.p, total d.t d.p d.n)) fun l => c (J :: l) := by
        funext x
        exact Finset.sum_congr rfl fun J _ => mul_comm _ _
      have e2 : (∑ J ∈ Finset.range (d.n + d.p), total d.t d.p d.n J *
          tensor (ds.map fun d => (d.n + d.p, total d.t d.p d.n)) fun l => c (J :: l)) =
          ∑ J ∈ Finset.range (d.n + d.p), (tensor (ds.map fun d => (d.n + d.p, total d.t d.p d.n)) fun l => c (J :: l)) *
            total d.t d.p d.n J := Finset.sum_congr rfl fun J _ => mul_comm _ _
      rw [e, e2]
      exact this

variable [FloorRing K]

/-- The dimension of the code is described by `d`, and its coefficients are stored on `N` elements. -/
structure IntDim.Of (d : Desc K) (N : Nat) (s : IntDim K) : Prop where
  is : s.bs.Is d.per d.p d.n d.t
  integrals : HasIntegrals s.bs d.per d.p d.n d.t
  sched : s.sched.Perm (List.range (if s.bs.isUniform then d.p else if d.per then d.n else d.n + d.p))
  dom : s.dom = seg () 0 N
  size : if d.per then N = d.n ∨ N = d.n + d.p else N = d.n + d.p

/-- An array of `N` values. -/
def Values (v : Chunk1 K) (N : Nat) (w : Nat → K) : Prop :=
  N < 2 ^ 63 ∧ v.On N ∧ ∀ i, i < N → v.data.val i = some (w i)

theorem foldlM_vals (is : List (Chunk1 K × Nat × (Nat → K) × Nat)) (h : ∀ a ∈ is, Values a.1 a.2.1 a.2.2.1 ∧ a.2.2.2 < a.2.1)
    (c : K) : (is.map fun a => (a.1, el () a.2.2.2)).foldlM (fun z a => do
      let w ← a.1.get a.2
      Res.ok (z * w)) c = .ok (c * (is.map fun a => a.2.2.1 a.2.2.2).prod) := by
  induction is generalizing c with
  | nil => simp
  | cons a is ih =>
    obtain ⟨h1, h2⟩ := h a List.mem_cons_self
    rw [List.map_cons, List.foldlM_cons, Chunk1.get_ok h1.2.1 h1.1 h2 (h1.2.2 _ h2), Res.ok_bind, Res.ok_bind,
      ih (fun a ha => h a (List.mem_cons_of_mem _ ha)), List.map_cons, List.prod_cons, mul_assoc]

theorem mapM_uids (is : List (Chunk1 K × Nat × (Nat → K) × Nat)) :
    (is.map fun a => (a.1, el () a.2.2.2)).mapM (fun a => uid1 a.2) =
      .ok ((is.map fun a => a.2.2.2).map (BitVec.ofNat 64)) := by
  induction is with
  | nil => rfl
  | cons a is ih =>
    rw [List.map_cons, List.mapM_cons, ih]
    rfl

theorem intLoop_ok {coef : Coefs K} {c : List Nat → K} (vs : List (Chunk1 K × Nat × (Nat → K)))
    (hv : ∀ a ∈ vs, Values a.1 a.2.1 a.2.2) (is : List (Chunk1 K × Nat × (Nat → K) × Nat))
    (hi : ∀ a ∈ is, Values a.1 a.2.1 a.2.2.1 ∧ a.2.2.2 < a.2.1)
    (hc : Holds (is.map (fun a => a.2.1) ++ vs.map fun a => a.2.1) coef c) (y : K) :
    intLoop coef (vs.map fun a => a.1) (is.map fun a => (a.1, el () a.2.2.2)) y =
      .ok (y + (is.map fun a => a.2.2.1 a.2.2.2).prod *
        tensor (vs.map fun a => a.2) fun l => c (is.map (fun a => a.2.2.2) ++ l)) := by
  induction vs generalizing is y with
  | nil =>
    have hidx : coef ((is.map fun a => a.2.2.2).map (BitVec.ofNat 64)) = .ok (c (is.map fun a => a.2.2.2)) := by
      refine hc _ ?_
      rw [List.map_nil, List.append_nil]
      clear hc
      induction is with
      | nil => exact .nil
      | cons a is ih =>
        exact .cons (hi a List.mem_cons_self).2 (ih fun a ha => hi a (List.mem_cons_of_mem _ ha))
    rw [List.map_nil, intLoop, mapM_uids, Res.ok_bind, hidx, Res.ok_bind, foldlM_vals is hi, Res.ok_bind, List.map_nil,
      tensor, List.append_nil, mul_comm]
  | cons v vs ih =>
    obtain ⟨v, N, w⟩ := v
    have hv0 : Values v N w := hv _ List.mem_cons_self
    have step : ∀ i, i < N → ∀ y, intLoop coef (vs.map fun a => a.1)
        ((is.map fun a => (a.1, el () a.2.2.2)) ++ [(v, el () (0 + i))]) y =
        .ok (y + (is.map fun a => a.2.2.1 a.2.2.2).prod * (w i *
          tensor (vs.map fun a => a.2) fun l => c (is.map (fun a => a.2.2.2) ++ i :: l))) := by
      intro i hiN y
      have := ih (fun a ha => hv a (List.mem_cons_of_mem _ ha)) (is ++ [(v, N, w, i)])
        (fun a ha => by
          rcases List.mem_append.1 ha with h1 | h1
          · exact hi a h1
          · rw [List.mem_singleton.1 h1]; exact ⟨hv0, hiN⟩)
        (by simpa using hc) y
      simp only [List.map_append, List.map_cons, List.map_nil, List.prod_append, List.prod_cons, List.prod_nil, mul_one,
        List.append_assoc, List.cons_append, List.nil_append] at this
      rw [Nat.zero_add, this, mul_assoc]
    rw [List.map_cons, intLoop, hv0.2.1.1, hostForEach1_seg (by omega) (by have := hv0.1; omega),
      forLoop_sum (g := fun i => (is.map fun a => a.2.2.1 a.2.2.2).prod * (w i *
          tensor (vs.map fun a => a.2) fun l => c (is.map (fun a => a.2.2.2) ++ i :: l)))]
    · simp only [List.map_cons, tensor, Finset.mul_sum, Nat.sub_zero]
    · intro i hi y
      exact step i (by simpa using hi) y

/-- The values that `integrate` computes first. -/
theorem intVals_ok {dNs : List (Desc K × Nat)} {dims : List (IntDim K)}
    (h : List.Forall₂ (fun (dN : Desc K × Nat) s => IntDim.Of dN.1 dN.2 s) dNs dims) :
    ∃ vs : List (Chunk1 K × Nat × (Nat → K)), (dims.mapM fun d => do
        let size ← Dom.size d.dom
        d.bs.integrals d.sched ⟨d.dom, Arr.uninit size.toNat⟩) = .ok (vs.map fun a => a.1) ∧
      (∀ a ∈ vs, Values a.1 a.2.1 a.2.2) ∧
      vs.map (fun a => a.2) = dNs.map fun dN => (dN.2, intVal dN.1.per dN.1.p dN.1.n dN.1.t) := by
  induction h with
  | nil => exact ⟨[], rfl, by simp, rfl⟩
  | @cons dN s dNs dims hd _ ih =>
    obtain ⟨vs, e, h1, h2⟩ := ih
    have hsm := hd.is.small
    have hsize := hd.size
    have hN : dN.2 < 2 ^ 63 := by split_ifs at hsize <;> omega
    obtain ⟨v, ev, g1, g2⟩ := hd.integrals s.sched hd.sched dN.2 hsize ⟨seg () 0 dN.2, Arr.uninit dN.2⟩ ⟨rfl, rfl⟩
    refine ⟨(v, dN.2, intVal dN.1.per dN.1.p dN.1.n dN.1.t) :: vs, ?_, ?_, by rw [List.map_cons, h2, List.map_cons]⟩
    · rw [List.mapM_cons, hd.dom, seg_size (by omega), Res.ok_bind, BitVec.toNat_ofNat, Nat.sub_zero,
        Nat.mod_eq_of_lt (by omega), ev, Res.ok_bind, e]
      rfl
    · intro a ha
      rcases List.mem_cons.1 ha with rfl | ha
      · exact ⟨hN, g1, g2⟩
      · exact h1 a ha

/-- The sum that `integrate` computes for each element of the batch domain. -/
theorem C55_sum {ds : List (Desc K)} {Ns : List Nat} {dims : List (IntDim K)}
    (h : List.Forall₂ (fun (dN : Desc K × Nat) s => IntDim.Of dN.1 dN.2 s) (List.zip ds Ns) dims)
    {σ : Sched} (hσ : σ.Valid) {coef : Nat → Coefs K} {out : Mat K} (hr : out.rows = 1) {c : Nat → List Nat → K}
    (hc : ∀ j, j < out.cols → Holds ((List.zip ds Ns).map fun dN => dN.2) (coef j) (c j)) :
    ∃ out', integrate σ dims coef out = .ok out' ∧ out'.rows = 1 ∧ out'.cols = out.cols ∧
      ∀ j, j < out.cols → out'.val 0 j =
        tensor ((List.zip ds Ns).map fun dN => (dN.2, intVal dN.1.per dN.1.p dN.1.n dN.1.t)) (c j) := by
  obtain ⟨vs, e, h1, h2⟩ := intVals_ok h
  have hmap : vs.map (fun a => a.2.1) = (List.zip ds Ns).map fun dN => dN.2 := by
    have := congrArg (List.map Prod.fst) h2
    simpa [List.map_map, Function.comp_def] using this
  obtain ⟨out', e', r, k, hval⟩ := colLoop_ok hσ (R := 1) (C := out.cols)
    (f := fun j out => do
      let out ← out.wr 0 j 0
      let y ← out.rd 0 j
      let y ← intLoop (coef j) (vs.map fun a => a.1) [] y
      out.wr 0 j y)
    (fun j col r => if r = 0 then tensor (vs.map fun a => a.2) (c j) else col r) (fun b j hb hb' hj => by
      have := intLoop_ok vs h1 [] (by simp) (coef := coef j) (c := c j) (by
        rw [List.map_nil, List.nil_append, hmap]; exact hc j hj) 0
      rw [List.map_nil, List.map_nil, List.prod_nil, one_mul, zero_add] at this
      rw [Mat.wr_ok (by omega) (by omega), Res.ok_bind, Mat.rd_ok (by simp [Mat.set]; omega) (by simp [Mat.set]; omega),
        Res.ok_bind]
      have h0 : (b.set 0 j 0).val 0 j = 0 := by simp [Mat.set]
      rw [h0, this, Res.ok_bind, Mat.wr_ok (by simp [Mat.set]; omega) (by simp [Mat.set]; omega)]
      simp only [Mat.set, List.map_nil, List.nil_append]
      congr 1
      rw [hb, hb']
      congr 1
      funext r c'
      by_cases c1 : c' = j
      · subst c1
        by_cases c2 : r = 0
        · simp [c2]
        · simp [c2]
      · simp [c1]) out hr rfl
  refine ⟨out', by rw [integrate, e, Res.ok_bind, e'], r, k, fun j hj => ?_⟩
  rw [hval 0 j hj, if_pos rfl, h2]

theorem tensor_ints {ds : List (Desc K)} {Ns : List Nat} (hl : Ns.length = ds.length) (hE : ∀ d ∈ ds, Ends d.t d.p d.n)
    (hrep : ∀ d ∈ ds, d.per = true → Rep d.t d.p d.n)
    (hN : ∀ dN ∈ List.zip ds Ns, if dN.1.per then dN.2 = dN.1.n ∨ dN.2 = dN.1.n + dN.1.p else dN.2 = dN.1.n + dN.1.p)
    {c : List Nat → K} (hc : PeriodicCoefs ds c) :
    tensor ((List.zip ds Ns).map fun dN => (dN.2, intVal dN.1.per dN.1.p dN.1.n dN.1.t)) c =
      tensor (ds.map fun d => (d.n + d.p, total d.t d.p d.n)) c := by
  induction ds generalizing Ns c with
  | nil => rfl
  | cons d ds ih =>
    obtain ⟨N, Ns, rfl⟩ := List.exists_cons_of_length_eq_add_one hl
    rw [List.zip_cons_cons] at hN ⊢
    simp only [List.map_cons, tensor]
    have e : ∀ J, tensor ((List.zip ds Ns).map fun dN => (dN.2, intVal dN.1.per dN.1.p dN.1.n dN.1.t)) (fun l => c (J :: l)) =
        tensor (ds.map fun d => (d.n + d.p, total d.t d.p d.n)) fun l => c (J :: l) := fun J =>
      ih (by simpa using hl) (fun d hd => hE d (List.mem_cons_of_mem _ hd)) (fun d hd => hrep d (List.mem_cons_of_mem _ hd))
        (fun dN hd => hN dN (List.mem_cons_of_mem _ hd)) (hc.2 J)
    simp only [e]
    have hN0 := hN (d, N) List.mem_cons_self
    dsimp only at hN0
    cases hpe : d.per
    · rw [hpe] at hN0
      simp only [Bool.false_eq_true, if_false] at hN0
      rw [hN0]
      refine Finset.sum_congr rfl fun J _ => ?_
      rw [intVal, if_neg (by simp)]
    · rw [hpe] at hN0
      simp only [if_true] at hN0
      have hp := periodic_total (hE d List.mem_cons_self) (hrep d List.mem_cons_self hpe)
        (c := fun J => tensor (ds.map fun d => (d.n + d.p, total d.t d.p d.n)) fun l => c (J :: l))
        (fun i hi => by simp only [hc.1 hpe i hi])
      rw [show (∑ J ∈ Finset.range (d.n + d.p), total d.t d.p d.n J *
        tensor (ds.map fun d => (d.n + d.p, total d.t d.p d.n)) fun l => c (J :: l)) =
          ∑ J ∈ Finset.range (d.n + d.p), tensor (ds.map fun d => (d.n + d.p, total d.t d.p d.n)) (fun l => c (J :: l)) *
            total d.t d.p d.n J from Finset.sum_congr rfl fun J _ => mul_comm _ _, hp]
      obtain ⟨k, hk⟩ : ∃ k, N = d.n + k := by
        rcases hN0 with h | h
        · exact ⟨0, by omega⟩
        · exact ⟨d.p, by omega⟩
      rw [hk, Finset.sum_range_add, Finset.sum_eq_zero (s := Finset.range k), add_zero]
      · refine Finset.sum_congr rfl fun J hJ => ?_
        rw [intVal, if_pos rfl, if_pos (Finset.mem_range.1 hJ), mul_comm]
      · intro J _
        rw [intVal, if_pos rfl, if_neg (by omega), zero_mul]

/-- `integrate` writes the integral of the spline for each element of the batch domain. -/
theorem C55_integrate_partial {ds : List (Desc K)} {Ns : List Nat} (hl : Ns.length = ds.length) {dims : List (IntDim K)}
    (h : List.Forall₂ (fun (dN : Desc K × Nat) s => IntDim.Of dN.1 dN.2 s) (List.zip ds Ns) dims)
    {σ : Sched} (hσ : σ.Valid) {coef : Nat → Coefs K} {out : Mat K} (hr : out.rows = 1) {c : Nat → List Nat → K}
    (hc : ∀ j, j < out.cols → Holds Ns (coef j) (c j)) (hper : ∀ j, j < out.cols → PeriodicCoefs ds (c j)) :
    ∃ out', integrate σ dims coef out = .ok out' ∧ out'.rows = 1 ∧ out'.cols = out.cols ∧
      ∀ j, j < out.cols →
        IsIterated ds (fun x => tensor (List.zipWith Desc.weights ds x) (c j)) (out'.val 0 j) := by
  have hmap : (List.zip ds Ns).map (fun dN => dN.2) = Ns := by
    rw [show (fun dN : Desc K × Nat => dN.2) = Prod.snd from rfl, List.map_snd_zip (by omega)]
  obtain ⟨out', e, r, k, hval⟩ := C55_sum h hσ hr (c := c) (fun j hj => by rw [hmap]; exact hc j hj)
  have hof : ∀ dN ∈ List.zip ds Ns, ∃ s, IntDim.Of dN.1 dN.2 s := by
    intro dN hd
    clear hmap hval hper hc e
    generalize List.zip ds Ns = z at h hd
    induction h with
    | nil => simp at hd
    | cons h1 _ ih =>
      rcases List.mem_cons.1 hd with rfl | hd
      · exact ⟨_, h1⟩
      · exact ih hd
  have hof' : ∀ d ∈ ds, ∃ N s, IntDim.Of d N s := by
    intro d hd
    have : d ∈ (List.zip ds Ns).map Prod.fst := by rw [List.map_fst_zip (by omega)]; exact hd
    obtain ⟨dN, h1, rfl⟩ := List.mem_map.1 this
    obtain ⟨s, hs⟩ := hof dN h1
    exact ⟨_, s, hs⟩
  have hE : ∀ d ∈ ds, Ends d.t d.p d.n := fun d hd => by
    obtain ⟨_, _, hs⟩ := hof' d hd
    exact ⟨hs.is.mono, hs.is.cells, hs.is.first, hs.is.last⟩
  refine ⟨out', e, r, k, fun j hj => ?_⟩
  rw [hval j hj, tensor_ints hl hE (fun d hd => by obtain ⟨_, _, hs⟩ := hof' d hd; exact hs.is.rep)
    (fun dN hd => by obtain ⟨s, hs⟩ := hof dN hd; exact hs.size) (hper j hj)]
  exact isIterated_tensor ds hE (c j)

/-- Two dimensions: periodic cubic B-splines on the non-uniform cells of `shiftBreaks`, and quadratic B-splines on three
uniform cells; all the hypotheses of `C55_integrate_partial` hold. -/
example {σ : Sched} (hσ : σ.Valid) (c : Nat → List Nat → Rat)
    (hc : ∀ j i, i < 3 → ∀ l, c j ((5 + i) :: l) = c j (i :: l)) : ∃ t u v, NUBS.mk' 3 true shiftBreaks = .ok u ∧
      UBS.mk' 2 false (0 : Rat) 3 3 = .ok v ∧
      ∃ out', integrate σ [⟨.nonUniform u, [4, 3, 2, 1, 0], seg () 0 5⟩, ⟨.uniform v, [1, 0], seg () 0 5⟩]
        (fun j idx => .ok (c j (idx.map BitVec.toNat))) ⟨1, 10, fun _ _ => 7⟩ = .ok out' ∧ ∀ j, j < 10 →
          IsIterated [⟨true, 3, 5, t⟩, ⟨false, 2, 3, uniformKnot (0 : Rat) 3 3 2⟩]
            (fun x => tensor (List.zipWith Desc.weights [⟨true, 3, 5, t⟩, ⟨false, 2, 3, uniformKnot (0 : Rat) 3 3 2⟩] x) (c j))
            (out'.val 0 j) := by
  have hgb : GoodBreaks shiftBreaks := ⟨by decide, (isSorted_iff _).1 (by decide +kernel), by decide +kernel,
    by decide +kernel⟩
  obtain ⟨u, t, eu, hu, -, hI⟩ := hasIntegrals_nonUniform (p := 3) (by norm_num) true hgb (by simp [shiftBreaks])
    (.inl (by norm_num))
  obtain ⟨v, ev, hv, hJ⟩ := hasIntegrals_uniform (p := 2) (by norm_num) false (a := (0 : Rat)) (b := 3) (by norm_num)
    (n := 3) (by norm_num) (by norm_num) (by simp)
  obtain ⟨out', e, -, -, h⟩ := C55_integrate_partial (ds := [⟨true, 3, 5, t⟩, ⟨false, 2, 3, uniformKnot (0 : Rat) 3 3 2⟩]) (Ns := [5, 5])
    rfl (dims := [⟨.nonUniform u, [4, 3, 2, 1, 0], seg () 0 5⟩, ⟨.uniform v, [1, 0], seg () 0 5⟩])
    (.cons ⟨hu, hI, by simp [BSpl.isUniform]; decide, rfl, by simp⟩
      (.cons ⟨hv, hJ, by simp [BSpl.isUniform]; decide, rfl, by simp⟩ .nil)) hσ
    (coef := fun j idx => .ok (c j (idx.map BitVec.toNat))) (out := ⟨1, 10, fun _ _ => 7⟩) rfl (c := c)
    (fun j _ idx hidx => by
      dsimp only
      rw [List.map_map]
      congr 2
      refine (List.map_congr_left fun i hi => ?_).trans (List.map_id _)
      have : i < 5 := by
        match idx, hidx with
        | [a, b], .cons h1 (.cons h2 .nil) =>
          simp only [List.mem_cons, List.not_mem_nil, or_false] at hi
          omega
      simp only [Function.comp, BitVec.toNat_ofNat, id]
      omega)
    (fun j _ => ⟨fun _ i hi l => hc j i hi l, fun J => ⟨by simp, fun _ => trivial⟩⟩)
  exact ⟨t, u, v, eu, ev, out', e, h⟩

end DDC.Props
