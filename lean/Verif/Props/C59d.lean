import Verif.Model.RoundedEdgePoints
import Verif.Props.C59

/-!
# C59: the Greville points kept for the closures of non-uniform B-splines, with rounding
-/

namespace DDC.Props

open Rounded Spec One

variable {fl : Rat → Rat}

section Selected

variable {u : NUBS Rat} {p n : Nat} {t : Nat → Rat}

/-- The points kept between two edges. -/
theorem grevilleNonUniform_open (hfl : RoundsAll fl) (h : u.Is p n t) (hper : u.periodic = false) {lo up : Closure} (hf : Fits false lo up) :
    grevilleNonUniform fl u lo up = NonUniform.mk' () ((List.range (unknowns false p n lo up)).map
      fun j => flAverage fl t p (edgeEquations lo p + j)) := by
  have hsorted : ∀ i j : Nat, i ≤ j → flAverage fl t p i ≤ flAverage fl t p j := fun i j hij =>
    flAverage_mono hfl (fun i j hij => h.mono hij) hij
  obtain ⟨F, hF⟩ : ∃ F, F = flAverage fl t p := ⟨_, rfl⟩
  rw [← hF] at hsorted
  have hopen : Rounded.grevilleOpen fl u = NonUniform.mk' () ((List.range (n + p)).map F) := by
    rw [hF]; exact grevilleOpen_eq h hper
  rw [← hF]
  have hsm := h.small
  have hn := h.cells
  have hadd := unknowns_add (p := p) (n := n) hf
  simp only [Bool.false_eq_true, if_false] at hadd
  have hl2 := edgeEquations_le lo p
  have hu2 := edgeEquations_le up p
  obtain ⟨N, hN⟩ : ∃ N, N = unknowns false p n lo up := ⟨_, rfl⟩
  obtain ⟨l, hl⟩ : ∃ l, l = edgeEquations lo p := ⟨_, rfl⟩
  obtain ⟨r, hr⟩ : ∃ r, r = edgeEquations up p := ⟨_, rfl⟩
  rw [← hN, ← hl, ← hr] at hadd
  rw [← hl] at hl2
  rw [← hr] at hu2
  simp only [grevilleNonUniform, equations_eq, h.degree, hper, Bool.false_eq_true, if_false]
  rw [← hN, ← hl, ← hr]
  by_cases hz : l + r = 0
  · rw [if_pos hz, hopen, show N = n + p by omega]
    congr 2
    funext j
    rw [show l + j = j by omega]
  rw [if_neg hz, hopen]
  have hsort : isSorted ((List.range (n + p)).map F) = true := (isSorted_iff _).2 (by
    intro i j hij hj
    simp only [List.getElem_map, List.getElem_range]
    exact hsorted i j hij)
  obtain ⟨wo, ew, hw1⟩ : ∃ wo, NonUniform.mk' () ((List.range (n + p)).map F) = .ok wo ∧ wo.size.toNat = n + p := by
    refine ⟨_, by rw [NonUniform.mk', if_pos hsort], ?_⟩
    simp only [NonUniform.size, List.length_map, List.length_range, BitVec.toNat_ofNat]; omega
  have hwo : ∀ k, k < n + p → wo.coordinate (el () k) = .ok (F k) := by
    intro k hk
    rw [NonUniform.mk'] at ew
    split_ifs at ew
    obtain rfl := Res.ok.inj ew
    rw [nu_coordinate_ok () _ (by omega) (by simpa using hk)]
    simp
  have hsz : (wo.size - BitVec.ofNat 64 (l + r)).toNat = N := by
    have : wo.size = BitVec.ofNat 64 (n + p) := by
      apply BitVec.eq_of_toNat_eq
      rw [hw1, BitVec.toNat_ofNat, Nat.mod_eq_of_lt (by omega)]
    rw [this, ofNat_sub (by omega), BitVec.toNat_ofNat, Nat.mod_eq_of_lt (by omega)]
    omega
  have hN0 : 0 < N := by omega
  rw [ew, Res.ok_bind]
  simp only [hsz]
  rw [el1_eq, ve1_eq, ofSize_nat, Res.ok_bind, One.front, hwo l (by omega), Res.ok_bind,
    Arr.wr_ok (show 0 < (Arr.const N (0 : Rat)).size from hN0), Res.ok_bind,
    show ve1 1 = vec () 1 from rfl, back_nat () (by omega)]
  have e4 : (BitVec.ofNat 64 N - 1).toNat = N - 1 := by
    rw [show (1 : U64) = BitVec.ofNat 64 1 from rfl, ofNat_sub (by omega), BitVec.toNat_ofNat,
      Nat.mod_eq_of_lt (by omega)]
  -- the inner points
  obtain ⟨inner, ei, p2, e2, s2, v2⟩ : ∃ inner,
      Dom.remove (seg () l (l + N)) (vec () 1) (vec () 1) = .ok inner ∧ ∃ p2,
      hostForEach1 inner (fun ip pts => do
        let i ← indexOf ip (el () l)
        let x ← wo.coordinate ip
        Arr.wr pts i x) ((Arr.const N (0 : Rat)).set 0 (F l)) = .ok p2 ∧ p2.size = N ∧
      ∀ j, j < N - 1 → p2.val j = some (F (l + j)) := by
    by_cases h1 : N = 1
    · subst h1
      refine ⟨_, remove_single, _, hostForEach1_neg (by omega) (by omega) _ _, rfl, fun j hj => by omega⟩
    · refine ⟨_, One.remove () (by omega) (by omega), ?_⟩
      obtain ⟨p2, e2, s2, v2, w2⟩ := setLoop_ok (f := fun i (pts : Arr Rat) => do
          let k ← indexOf (el () (l + 1 + i)) (el () l)
          let x ← wo.coordinate (el () (l + 1 + i))
          Arr.wr pts k x) (pos := fun i => i + 1) (v := fun i => F (l + 1 + i)) (m := N - 2)
        (N := N)
        (fun k arr hk hsz => by
          rw [indexOf_nat (by omega) (by omega), Res.ok_bind, hwo _ (by omega), Res.ok_bind,
            Arr.wr_ok (by omega), show l + 1 + k - l = k + 1 by omega])
        (fun i j hij _ => by simp; omega) ((Arr.const N (0 : Rat)).set 0 (F l)) rfl
      refine ⟨p2, ?_, s2, fun j hj => ?_⟩
      · rw [hostForEach1_seg (by omega) (by omega), show l + N - 1 - (l + 1) = N - 2 by omega]
        exact e2
      · rcases Nat.eq_zero_or_pos j with rfl | hj0
        · rw [w2 0 (fun i _ => by omega), Arr.set_val, if_pos rfl, Nat.add_zero]
        · have := v2 (j - 1) (by omega)
          rw [show j - 1 + 1 = j by omega, show l + 1 + (j - 1) = l + j by omega] at this
          exact this
  have h3 := Arr.toList_ok (a := p2.set (N - 1) (F (l + N - 1)))
    (fun j => F (l + j)) (fun j hj => by
      rw [Arr.set_size, s2] at hj
      rw [Arr.set_val]
      by_cases c : j = N - 1
      · rw [if_pos c, c, show l + N - 1 = l + (N - 1) by omega]
      · rw [if_neg c, v2 j (by omega)])
  rw [Arr.set_size, s2] at h3
  rw [ei, Res.ok_bind, e2, Res.ok_bind, Res.ok_bind, hwo _ (by omega), Res.ok_bind, e4,
    Arr.wr_ok (by omega), Res.ok_bind, h3, Res.ok_bind]

/-- Non-uniform B-splines that are not periodic, any closures, whatever the rounding: `get_sampling` returns as many
points as there are interpolation unknowns, which are the Greville points (`C59_sorted`, `C59_non_uniform_partial`) without the first
and the last ones, as many as there are equations of derivatives at each edge. -/
theorem C59_selected (hfl : RoundsAll fl) (p : Nat) (hp : 0 < p) (breaks : List Rat) (hl : 2 ≤ breaks.length)
    (hb : Increasing breaks) (hs : breaks.length + 2 * p < 2 ^ 63) (hlt : breaks[0] < breaks[breaks.length - 1])
    {lo up : Closure} (hf : Fits false lo up) :
    ∃ u s s', NUBS.mk' p false breaks = .ok u ∧ Rounded.grevilleOpen fl u = .ok s ∧ grevilleNonUniform fl u lo up = .ok s' ∧
      s'.size.toNat + edgeEquations lo p + edgeEquations up p = s.size.toNat ∧
      s'.size.toNat = unknowns false p (breaks.length - 1) lo up ∧
      ∀ i, i < s'.size.toNat → ∃ x, s'.coordinate (el () i) = .ok x ∧ s.coordinate (el () (edgeEquations lo p + i)) = .ok x := by
  obtain ⟨u, t, e, hper, h, hk⟩ := NUBS.mk'_is hp false hl hs hb hlt
  have hm : ∀ i j : Nat, i ≤ j → flAverage fl t p i ≤ flAverage fl t p j := fun i j hij =>
    flAverage_mono hfl (fun i j hij => h.mono hij) hij
  have hadd := unknowns_add (p := p) (n := breaks.length - 1) hf
  simp only [Bool.false_eq_true, if_false] at hadd
  have h1 : ∀ (l m : Nat), isSorted ((List.range m).map fun j => flAverage fl t p (l + j)) = true := fun l m =>
    (isSorted_iff _).2 (by
      intro i j hij hj
      simp only [List.getElem_map, List.getElem_range]
      exact hm _ _ (by omega))
  have h2 : isSorted ((List.range (breaks.length - 1 + p)).map (flAverage fl t p)) = true := by
    have := h1 0 (breaks.length - 1 + p)
    simpa using this
  have hsz : (⟨(List.range (unknowns false p (breaks.length - 1) lo up)).map fun j => flAverage fl t p (edgeEquations lo p + j),
      Elem.createReference ()⟩ : NonUniform Unit Rat).size.toNat = unknowns false p (breaks.length - 1) lo up := by
    simp only [NonUniform.size, List.length_map, List.length_range, BitVec.toNat_ofNat]; omega
  refine ⟨u, ⟨(List.range (breaks.length - 1 + p)).map (flAverage fl t p), Elem.createReference ()⟩,
    ⟨(List.range (unknowns false p (breaks.length - 1) lo up)).map fun j => flAverage fl t p (edgeEquations lo p + j),
      Elem.createReference ()⟩, e, ?_, ?_, ?_, hsz, fun i hi => ⟨flAverage fl t p (edgeEquations lo p + i), ?_, ?_⟩⟩
  · rw [grevilleOpen_eq h hper, NonUniform.mk', if_pos h2]
  · rw [grevilleNonUniform_open hfl h hper hf, NonUniform.mk', if_pos (h1 _ _)]
  · rw [hsz]
    simp only [NonUniform.size, List.length_map, List.length_range, BitVec.toNat_ofNat]; omega
  · rw [hsz] at hi
    rw [nu_coordinate_ok () _ (by omega) (by simpa using hi)]
    simp
  · rw [hsz] at hi
    rw [nu_coordinate_ok () _ (by omega) (by simp; omega)]
    simp

example : ∃ u s', NUBS.mk' 3 false [0, 1, round53 (21 / 10), 4] = .ok u ∧
    grevilleNonUniform round53 u .hermite .greville = .ok s' ∧ s'.size.toNat = 5 := by
  obtain ⟨u, s, s', h1, -, h2, -, h3, -⟩ := C59_selected round53_all 3 (by norm_num) [0, 1, round53 (21 / 10), 4] (by simp)
    ((isSorted_iff _).1 (by decide +kernel)) (by norm_num) (by simp) (lo := .hermite) (up := .greville) ⟨by simp, by simp⟩
  exact ⟨u, s', h1, h2, h3⟩

end Selected

end DDC.Props
