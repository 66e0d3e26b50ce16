import Verif.Props.C37
import Verif.Props.C31

/-!
# C37 — the points of non-uniform B-splines, and the knots as points
-/

namespace DDC.Props

open One Dom Spec NUBS

set_option linter.unusedSectionVars false

variable {K : Type} [Field K] [LinearOrder K] [IsStrictOrderedRing K]

section NonUniform

variable {u : NUBS K} {p n : Nat} {t : Nat → K}

/-- Specification: the average of the `p` inner knots of a B-spline. -/
def average (t : Nat → K) (p j : Nat) : K := (∑ k ∈ Finset.range p, t (j + 1 + k)) / (p : K)

theorem average_step (hp : 0 < p) {j : Nat} (h : t (j + 1) < t (j + 1 + p)) :
    average t p j < average t p (j + 1) := by
  have hp' : (0 : K) < p := by exact_mod_cast hp
  rw [average, average]
  refine div_lt_div_of_pos_right ?_ hp'
  have e1 := Finset.sum_range_succ (fun k => t (j + 1 + k)) p
  have e2 := Finset.sum_range_succ' (fun k => t (j + 1 + k)) p
  have e3 : ∑ k ∈ Finset.range p, t (j + 1 + (k + 1)) = ∑ k ∈ Finset.range p, t (j + 1 + 1 + k) :=
    Finset.sum_congr rfl fun k _ => congrArg t (by omega)
  rw [e2, e3] at e1
  simp only [Nat.add_zero] at e1
  linarith

theorem average_ge (hp : 0 < p) {j : Nat} {c : K} (h : ∀ k, k < p → c ≤ t (j + 1 + k)) :
    c ≤ average t p j := by
  have hp' : (0 : K) < p := by exact_mod_cast hp
  rw [average, le_div_iff₀ hp']
  have := Finset.card_nsmul_le_sum (Finset.range p) (fun k => t (j + 1 + k)) c
    (fun k hk => h k (Finset.mem_range.1 hk))
  rw [Finset.card_range, nsmul_eq_mul] at this
  linarith

theorem average_le (hp : 0 < p) {j : Nat} {c : K} (h : ∀ k, k < p → t (j + 1 + k) ≤ c) :
    average t p j ≤ c := by
  have hp' : (0 : K) < p := by exact_mod_cast hp
  rw [average, div_le_iff₀ hp']
  have := Finset.sum_le_card_nsmul (Finset.range p) (fun k => t (j + 1 + k)) c
    (fun k hk => h k (Finset.mem_range.1 hk))
  rw [Finset.card_range, nsmul_eq_mul] at this
  linarith

theorem nubs_nbasis (h : u.Is p n t) :
    u.nbasis = .ok (BitVec.ofNat 64 (if u.periodic then n else n + p)) := by
  rw [NUBS.nbasis, h.ncells, Res.ok_bind, h.degree]
  cases u.periodic
  · simp only [Bool.false_eq_true, if_false, BitVec.ofNat_add]; rfl
  · simp only [if_true]
    exact congrArg Res.ok (by simp)

theorem nubs_full (h : u.Is p n t) : u.fullDomain = .ok (seg () 0 (n + p)) := by
  rw [NUBS.fullDomain, NUBS.size, h.ncells, Res.ok_bind, h.degree, Res.pure_eq, Res.ok_bind, h.ref,
    ← BitVec.ofNat_add, ve1_eq, ofSize_nat, Nat.zero_add, Nat.add_comm]

theorem nubs_count (h : u.Is p n t) {lo up : Closure} (hf : Fits u.periodic lo up) :
    u.grevilleCount lo up = .ok (BitVec.ofNat 64 (unknowns u.periodic p n lo up)) := by
  rw [NUBS.grevilleCount, nubs_nbasis h, Res.ok_bind, equations_eq, equations_eq, h.degree,
    ← unknowns_add (p := p) (n := n) hf, ofNat_sub (by omega)]
  simp

theorem nubs_grevilleDomain (h : u.Is p n t) {lo up : Closure} (hf : Fits u.periodic lo up) :
    u.grevilleDomain lo up = .ok (seg () 0 (unknowns u.periodic p n lo up)) := by
  rw [NUBS.grevilleDomain, nubs_count h hf, Res.ok_bind, ve1_eq, show el1 0 = el () 0 from rfl, ofSize_nat,
    Nat.zero_add]

theorem nubs_firstSupportKnot (h : u.Is p n t) {i : Nat} :
    u.firstSupportKnot (el () i) = .ok (el () i) := by
  rw [NUBS.firstSupportKnot, h.ref, sub_nat () (Nat.zero_le i), Res.ok_bind,
    show Vect.value (vec () (i - 0)) = .ok (BitVec.ofNat 64 i) from rfl, Res.ok_bind,
    h.knotDom, One.front, addInt_el, Nat.zero_add]

theorem grevilleOne_ok (h : u.Is p n t) {i N : Nat} (hi : i < n + p) (hN : i < N) (pts : Arr K)
    (hsz : pts.size = N) :
    u.grevilleOne (el () 0) (el () i) pts = .ok (pts.set i (average t p i)) := by
  have hsm := h.small
  rw [NUBS.grevilleOne, indexOf_nat (by omega) (by omega), Res.ok_bind, Nat.sub_zero, Arr.wr_ok (by omega),
    Res.ok_bind, nubs_firstSupportKnot h, Res.ok_bind, show (1 : I64) = BitVec.ofNat 64 1 from rfl, addInt_el,
    Res.ok_bind, ve1_eq, h.degree, ofSize_nat, Res.ok_bind, hostForEach1_seg (by omega) (by omega),
    Nat.add_sub_cancel_left,
    addLoop_ok (g := fun k => t (i + 1 + k)) ?_ pts (by omega), Res.ok_bind,
    Arr.divBy_ok (by rw [Arr.set_size]; omega) (by rw [Arr.set_val, if_pos rfl]), Arr.set_set, zero_add]
  · rfl
  · intro k arr hk
    rw [h.coord _ (by omega), Res.ok_bind]

/-- The averages computed by the first loop. -/
theorem grevilleAverages (h : u.Is p n t) {m N : Nat} (hm : m ≤ n + p) (hN : m ≤ N) :
    ∃ a', hostForEach1 (seg () 0 m) (u.grevilleOne (Dom.front (seg () 0 m))) (Arr.const N 0) = .ok a' ∧
      a'.size = N ∧ (∀ i, i < m → a'.val i = some (average t p i)) ∧
      ∀ j, m ≤ j → a'.val j = some 0 := by
  have hsm := h.small
  rw [hostForEach1_seg (by omega) (by omega), One.front]
  obtain ⟨a', e, h1, h2, h3⟩ := setLoop_ok (f := fun i => u.grevilleOne (el () 0) (el () (0 + i)))
    (pos := id) (v := average t p) (m := m) (N := N)
    (fun k arr hk hsz => by rw [Nat.zero_add]; exact grevilleOne_ok h (by omega) (by omega) arr hsz)
    (fun i j hij _ => by simpa using hij.ne) (Arr.const N 0) rfl
  exact ⟨a', e, h1, h2, fun j hj => h3 j fun i hi => by simp; omega⟩

/-- Without periodicity the sampling holds the averages. -/
theorem grevilleAll_open (h : u.Is p n t) (hper : u.periodic = false) :
    u.grevilleAll = NonUniform.mk' () ((List.range (n + p)).map (average t p)) := by
  have hsm := h.small
  obtain ⟨a', e, h1, h2, -⟩ := grevilleAverages h (m := n + p) (N := n + p) le_rfl le_rfl
  have h3 := Arr.toList_ok _ (fun i hi => h2 i (by rw [h1] at hi; exact hi))
  rw [h1] at h3
  rw [NUBS.grevilleAll, nubs_nbasis h, Res.ok_bind, hper]
  simp only [Bool.false_eq_true, if_false]
  rw [nubs_full h, Res.ok_bind, ve1_eq, One.takeFirst, Res.ok_bind, Nat.zero_add, BitVec.toNat_ofNat,
    Nat.mod_eq_of_lt (by omega), e, Res.ok_bind, Res.pure_eq, Res.ok_bind, h3, Res.ok_bind]

/-- `remove(1, 1)` of a domain with one element. -/
theorem remove_single {l : Nat} : Dom.remove (seg () l (l + 1)) (vec () 1) (vec () 1) =
    .ok (seg () (l + 1) l) := by
  have h1 : Vect.sub (vec () 0) (vec () 1) = .ok [((), (-1 : I64))] := by
    rw [vec, vec, vsub]; rfl
  rw [Dom.remove, One.front, addVec_nat, Res.ok_bind, extents_nat () (by omega), Res.ok_bind,
    show Vect.sub (vec () (l + 1 - l)) (vec () 1) = .ok (vec () 0) by
      rw [Nat.add_sub_cancel_left, vec, vsub_nat () (by omega) (by omega)]; rfl,
    Res.ok_bind, h1, Res.ok_bind, el, One.ofSize, seg]
  have h2 : BitVec.ofNat 64 (l + 1) + (-1 : I64) = BitVec.ofNat 64 l := by
    rw [BitVec.ofNat_add, BitVec.add_assoc, show (BitVec.ofNat 64 1 + (-1) : I64) = 0#64 by decide,
      BitVec.add_zero]
  rw [h2]

/-- The points kept between two edges. -/
theorem grevilleSampling_open (h : u.Is p n t) (hper : u.periodic = false)
    (hsorted : ∀ j, j + 1 < n + p → average t p j < average t p (j + 1)) {lo up : Closure}
    (hf : Fits false lo up) :
    u.grevilleSampling lo up = NonUniform.mk' () ((List.range (unknowns false p n lo up)).map
      fun j => average t p (edgeEquations lo p + j)) := by
  have hsm := h.small
  have hn := h.cells
  have hadd := unknowns_add (p := p) (n := n) hf
  simp only [Bool.false_eq_true, if_false] at hadd
  have hl2 := edgeEquations_le lo p
  have hu2 := edgeEquations_le up p
  obtain ⟨N, hN⟩ : ∃ N, N = unknowns false p n lo up := ⟨_, rfl⟩
  obtain ⟨l, hl⟩ : ∃ l, l = edgeEquations lo p := ⟨_, rfl⟩
  obtain ⟨r, hr⟩ : ∃ r, r = edgeEquations up p := ⟨_, rfl⟩
  rw [← hN, ← hl, ← hr] at hadd
  rw [← hl] at hl2
  rw [← hr] at hu2
  simp only [NUBS.grevilleSampling, equations_eq, h.degree]
  rw [← hN, ← hl, ← hr]
  by_cases hz : l + r = 0
  · rw [if_pos hz, grevilleAll_open h hper, show N = n + p by omega]
    congr 2
    funext j
    rw [show l + j = j by omega]
  rw [if_neg hz, grevilleAll_open h hper]
  obtain ⟨wo, ew, hw1, -⟩ := goodMesh_list (N := n + p) (a := average t p 0)
    (b := average t p (n + p - 1)) (average t p) (by omega) hsorted (fun _ => le_rfl) (fun _ => le_rfl)
  have hwo : ∀ k, k < n + p → wo.coordinate (el () k) = .ok (average t p k) := by
    intro k hk
    rw [NonUniform.mk'] at ew
    split_ifs at ew
    obtain rfl := Res.ok.inj ew
    rw [nu_coordinate_ok () _ (by omega) (by simpa using hk)]
    simp
  have hsz : (wo.size - BitVec.ofNat 64 (l + r)).toNat = N := by
    have : wo.size = BitVec.ofNat 64 (n + p) := by
      apply BitVec.eq_of_toNat_eq
      rw [hw1, BitVec.toNat_ofNat, Nat.mod_eq_of_lt (by omega)]
    rw [this, ofNat_sub (by omega), BitVec.toNat_ofNat, Nat.mod_eq_of_lt (by omega)]
    omega
  have hN0 : 0 < N := by omega
  rw [ew, Res.ok_bind]
  simp only [hsz]
  rw [el1_eq, ve1_eq, ofSize_nat, Res.ok_bind, One.front, hwo l (by omega), Res.ok_bind,
    Arr.wr_ok (show 0 < (Arr.const N (0 : K)).size from hN0), Res.ok_bind,
    show ve1 1 = vec () 1 from rfl, back_nat () (by omega)]
  have e4 : (BitVec.ofNat 64 N - 1).toNat = N - 1 := by
    rw [show (1 : U64) = BitVec.ofNat 64 1 from rfl, ofNat_sub (by omega), BitVec.toNat_ofNat,
      Nat.mod_eq_of_lt (by omega)]
  -- the inner points
  obtain ⟨inner, ei, p2, e2, s2, v2⟩ : ∃ inner,
      Dom.remove (seg () l (l + N)) (vec () 1) (vec () 1) = .ok inner ∧ ∃ p2,
      hostForEach1 inner (fun ip pts => do
        let i ← indexOf ip (el () l)
        let x ← wo.coordinate ip
        Arr.wr pts i x) ((Arr.const N (0 : K)).set 0 (average t p l)) = .ok p2 ∧ p2.size = N ∧
      ∀ j, j < N - 1 → p2.val j = some (average t p (l + j)) := by
    by_cases h1 : N = 1
    · subst h1
      refine ⟨_, remove_single, _, hostForEach1_neg (by omega) (by omega) _ _, rfl, fun j hj => by omega⟩
    · refine ⟨_, One.remove () (by omega) (by omega), ?_⟩
      obtain ⟨p2, e2, s2, v2, w2⟩ := setLoop_ok (f := fun i (pts : Arr K) => do
          let k ← indexOf (el () (l + 1 + i)) (el () l)
          let x ← wo.coordinate (el () (l + 1 + i))
          Arr.wr pts k x) (pos := fun i => i + 1) (v := fun i => average t p (l + 1 + i)) (m := N - 2)
        (N := N)
        (fun k arr hk hsz => by
          rw [indexOf_nat (by omega) (by omega), Res.ok_bind, hwo _ (by omega), Res.ok_bind,
            Arr.wr_ok (by omega), show l + 1 + k - l = k + 1 by omega])
        (fun i j hij _ => by simp; omega) ((Arr.const N (0 : K)).set 0 (average t p l)) rfl
      refine ⟨p2, ?_, s2, fun j hj => ?_⟩
      · rw [hostForEach1_seg (by omega) (by omega), show l + N - 1 - (l + 1) = N - 2 by omega]
        exact e2
      · rcases Nat.eq_zero_or_pos j with rfl | hj0
        · rw [w2 0 (fun i _ => by omega), Arr.set_val, if_pos rfl, Nat.add_zero]
        · have := v2 (j - 1) (by omega)
          rw [show j - 1 + 1 = j by omega, show l + 1 + (j - 1) = l + j by omega] at this
          exact this
  have h3 := Arr.toList_ok (a := p2.set (N - 1) (average t p (l + N - 1)))
    (fun j => average t p (l + j)) (fun j hj => by
      rw [Arr.set_size, s2] at hj
      rw [Arr.set_val]
      by_cases c : j = N - 1
      · rw [if_pos c, c, show l + N - 1 = l + (N - 1) by omega]
      · rw [if_neg c, v2 j (by omega)])
  rw [Arr.set_size, s2] at h3
  rw [ei, Res.ok_bind, e2, Res.ok_bind, Res.ok_bind, hwo _ (by omega), Res.ok_bind, e4,
    Arr.wr_ok (by omega), Res.ok_bind, h3, Res.ok_bind]

/-- Specification: strictly increasing break points. -/
def StrictBreaks (breaks : List K) : Prop :=
  2 ≤ breaks.length ∧ ∀ i j (_ : i < j) (_ : j < breaks.length), breaks[i] < breaks[j]

theorem strict_inner {per : Bool} {breaks : List K} (hb : StrictBreaks breaks) (hk : KnotsOf p per breaks t)
    {i j : Nat} (hi : p ≤ i) (hij : i < j) (hj : j < p + breaks.length) : t i < t j := by
  have h1 := hk.inner (i - p) (by omega)
  have h2 := hk.inner (j - p) (by omega)
  rw [show p + (i - p) = i by omega] at h1
  rw [show p + (j - p) = j by omega] at h2
  rw [h1, h2]
  exact hb.2 _ _ (by omega) (by omega)

/-- Non-uniform B-splines without periodicity: the right number of increasing points of the domain,
whatever the degree, the break points and the closures. -/
theorem C37_non_uniform (p : Nat) (hp : 0 < p) (breaks : List K) (hb : StrictBreaks breaks)
    (hs : breaks.length + 2 * p < 2 ^ 63) (lo up : Closure) (hf : Fits false lo up) :
    ∃ u d s, NUBS.mk' p false breaks = .ok u ∧
      u.grevilleDomain lo up = .ok d ∧ u.grevilleSampling lo up = .ok s ∧
      s.size.toNat = unknowns false p (breaks.length - 1) lo up ∧
      GoodMesh s.coordinate d (unknowns false p (breaks.length - 1) lo up)
        (breaks[0]'(by have := hb.1; omega)) (breaks[breaks.length - 1]'(by have := hb.1; omega)) := by
  have h2 := hb.1
  have hg := GoodBreaks.of_strict hb.1 hb.2
  obtain ⟨u, t, e, hper, h, hk⟩ := NUBS.mk'_is hp false hb.1 hs hg.sorted hg.lt
  have hsm := h.small
  have hmono : ∀ j, j + 1 < breaks.length - 1 + p → average t p j < average t p (j + 1) := by
    intro j hj
    refine average_step hp ?_
    have hc : max (j + 1) p < max (j + 1) p + 1 := by omega
    calc t (j + 1) ≤ t (max (j + 1) p) := h.mono (by omega)
      _ < t (max (j + 1) p + 1) := strict_inner hb hk (by omega) hc (by omega)
      _ ≤ t (j + 1 + p) := h.mono (by omega)
  have ha : t p = breaks[0]'(by omega) := hk.inner 0 (by omega)
  have hbb : t (p + (breaks.length - 1)) = breaks[breaks.length - 1]'(by omega) := hk.inner _ (by omega)
  have hadd := unknowns_add (p := p) (n := breaks.length - 1) hf
  simp only [Bool.false_eq_true, if_false] at hadd
  have hlo := edgeEquations_le lo p
  obtain ⟨s, es, h3, h4⟩ := goodMesh_list (N := unknowns false p (breaks.length - 1) lo up)
    (a := breaks[0]'(by omega)) (b := breaks[breaks.length - 1]'(by omega))
    (fun j => average t p (edgeEquations lo p + j)) (by omega)
    (fun k hk => hmono _ (by omega))
    (fun h0 => by
      rw [← ha]
      refine average_ge hp fun k hk' => ?_
      rcases Nat.lt_or_ge (edgeEquations lo p + 0 + 1 + k) p with c | c
      · rw [(hk.clamped rfl (edgeEquations lo p + 0 + 1 + k) (by omega)).1]
      · exact h.mono c)
    (fun h0 => by
      rw [← hbb]
      refine average_le hp fun k hk' => ?_
      rcases Nat.lt_or_ge (p + (breaks.length - 1))
        (edgeEquations lo p + (unknowns false p (breaks.length - 1) lo up - 1) + 1 + k) with c | c
      · rw [show edgeEquations lo p + (unknowns false p (breaks.length - 1) lo up - 1) + 1 + k =
          p + (breaks.length - 1) + (edgeEquations lo p + (unknowns false p (breaks.length - 1) lo up - 1) +
            1 + k - (p + (breaks.length - 1))) by omega, (hk.clamped rfl _ (by omega)).2]
      · exact h.mono c)
  refine ⟨u, _, s, e, ?_, ?_, h3, h4⟩
  · rw [nubs_grevilleDomain h (by rw [hper]; exact hf), hper]
  · rw [grevilleSampling_open h hper hmono hf, es]

/-! ### Periodic -/

theorem countLoop_ok {pts : Arr K} {g : Nat → K} {a len : K} {c : Nat} (hc : c < p) (hsz : c < pts.size)
    (hv : ∀ i, i ≤ c → pts.val i = some (g i)) (hlt : ∀ i, i < c → g i < a) (hge : a ≤ g c) :
    ∀ (fuel k : Nat) (temp : Arr K), c - k < fuel → k ≤ c → temp.size = p →
      (∀ i, i < k → temp.val i = some (g i + len)) →
      ∃ temp', countLoop pts a len p fuel k temp = .ok (c, temp') ∧ temp'.size = p ∧
        ∀ i, i < c → temp'.val i = some (g i + len) := by
  intro fuel
  induction fuel with
  | zero => intro k temp h; omega
  | succ fuel ih =>
    intro k temp hf hk ht hval
    rw [countLoop, Arr.rd_ok (by omega) (hv k hk), Res.ok_bind]
    by_cases hkc : k = c
    · subst hkc
      rw [if_neg (not_lt.2 hge)]
      exact ⟨temp, rfl, ht, hval⟩
    · rw [if_pos (hlt k (by omega)), decide_eq_true (by omega : k < p), Res.guardAbort_true, Res.ok_bind,
        Arr.wr_ok (by omega), Res.ok_bind]
      refine ih (k + 1) _ (by omega) (by omega) ht fun i hi => ?_
      rw [Arr.set_val]
      by_cases h : i = k
      · rw [if_pos h, h]
      · rw [if_neg h, hval i (by omega)]

/-- The points of the periodic case, in order. -/
def shifted (g : Nat → K) (n c : Nat) (len : K) (j : Nat) : K :=
  if j + c < n then g (j + c) else g (j + c - n) + len

theorem grevilleAll_periodic (h : u.Is p n t) (hper : u.periodic = true) {c : Nat} (hcp : c < p)
    (hcn : c < n) (hlt : ∀ i, i < c → average t p i < t p) (hge : t p ≤ average t p c) :
    u.grevilleAll = NonUniform.mk' () ((List.range (n + 1)).map
      (shifted (average t p) n c (t (p + n) - t p))) := by
  have hsm := h.small
  have hn := h.cells
  obtain ⟨p0, e0, s0, v0, -⟩ := grevilleAverages h (m := n) (N := n + 1) (by omega) (by omega)
  obtain ⟨temp, et, st, vt⟩ := countLoop_ok (p := p) (len := t (p + n) - t p) hcp (by omega : c < p0.size)
    (fun i hi => v0 i (by omega)) hlt hge (p + 1) 0 (Arr.const p 0) (by omega) (by omega) rfl
    (fun i hi => absurd hi (by omega))
  -- shift
  obtain ⟨p1, e1, s1, v1, w1⟩ := forLoop_inv (f := fun i (pts : Arr K) => do
      let x ← Arr.rd pts (i + c)
      Arr.wr pts i x)
    (fun i pts => pts.size = n + 1 ∧ (∀ j, j < i → pts.val j = some (average t p (j + c))) ∧
      ∀ j, i ≤ j → pts.val j = p0.val j) (n - c) 0 p0
    ⟨s0, fun j hj => absurd hj (by omega), fun j _ => rfl⟩ (by
      rintro i pts - hi ⟨g1, g2, g3⟩
      refine ⟨pts.set i (average t p (i + c)), ?_, ?_⟩
      · rw [Arr.rd_ok (by omega) (by rw [g3 _ (by omega), v0 _ (by omega)]), Res.ok_bind,
          Arr.wr_ok (by omega)]
      · refine ⟨g1, fun j hj => ?_, fun j hj => ?_⟩
        · rw [Arr.set_val]
          by_cases hji : j = i
          · rw [if_pos hji, hji]
          · rw [if_neg hji, g2 j (by omega)]
        · rw [Arr.set_val, if_neg (by omega), g3 j (by omega)])
  rw [Nat.zero_add] at v1 w1
  obtain ⟨p2, e2, s2, v2, w2⟩ := setLoop_ok (f := fun i (pts : Arr K) => do
      let x ← temp.rd i
      Arr.wr pts (BitVec.ofNat 64 n - BitVec.ofNat 64 c + BitVec.ofNat 64 i : U64).toNat x)
    (pos := fun i => n - c + i) (v := fun i => average t p i + (t (p + n) - t p)) (m := c) (N := n + 1)
    (fun k arr hk hsz => by
      rw [Arr.rd_ok (by omega) (vt k hk), Res.ok_bind, ofNat_sub (by omega), ← BitVec.ofNat_add,
        BitVec.toNat_ofNat, Nat.mod_eq_of_lt (by omega), Arr.wr_ok (by omega)])
    (fun i j hij _ => by simp; omega) p1 s1
  have hp20 : p2.val 0 = some (average t p c) := by
    rw [w2 0 (fun i _ => by omega), v1 0 (by omega), Nat.zero_add]
  have h3 := Arr.toList_ok (a := p2.set (n + 1 - 1) (average t p c + (t (p + n) - t p)))
    (shifted (average t p) n c (t (p + n) - t p)) (fun j hj => by
      rw [Arr.set_size, s2] at hj
      rw [Arr.set_val, shifted]
      by_cases g : j = n + 1 - 1
      · rw [if_pos g, if_neg (by omega), show j + c - n = c by omega]
      · rw [if_neg g]
        by_cases g' : j + c < n
        · rw [if_pos g', w2 j (fun i _ => by omega), v1 j (by omega)]
        · rw [if_neg g']
          have := v2 (j + c - n) (by omega)
          rw [show n - c + (j + c - n) = j by omega] at this
          exact this)
  rw [Arr.set_size, s2] at h3
  have e5 : (BitVec.ofNat 64 n + 1 : U64).toNat = n + 1 := by
    rw [NUBS.ofNat_succ, BitVec.toNat_ofNat, Nat.mod_eq_of_lt (by omega)]
  have e6 : (BitVec.ofNat 64 n - BitVec.ofNat 64 c : U64).toNat = n - c := by
    rw [ofNat_sub (by omega), BitVec.toNat_ofNat, Nat.mod_eq_of_lt (by omega)]
  have e7 : u.grevillePeriodic (n + 1) p0 =
      .ok (p2.set (n + 1 - 1) (average t p c + (t (p + n) - t p))) := by
    rw [NUBS.grevillePeriodic, h.rmin, Res.ok_bind, NUBS.length, h.rmax, Res.ok_bind, h.rmin, Res.ok_bind,
      Res.pure_eq, Res.ok_bind, nubs_nbasis h, hper, Res.ok_bind]
    simp only [if_true, h.degree]
    rw [et, Res.ok_bind]
    simp only [e6]
    rw [e1, Res.ok_bind, e2, Res.ok_bind, Arr.rd_ok (by omega) hp20, Res.ok_bind, Arr.wr_ok (by omega)]
  rw [NUBS.grevilleAll, nubs_nbasis h, Res.ok_bind, hper]
  simp only [if_true]
  rw [nubs_full h, Res.ok_bind, ve1_eq, One.takeFirst, Res.ok_bind, Nat.zero_add, e5, e0, Res.ok_bind, e7,
    Res.ok_bind, h3, Res.ok_bind]

theorem strict_periodic {breaks : List K} (hb : StrictBreaks breaks)
    (hk : KnotsOf p true breaks t) (hpn : p ≤ breaks.length - 1) (k : Nat)
    (hk' : k < breaks.length - 1 + 2 * p) : t k < t (k + 1) := by
  have h2 := hb.1
  have hin := fun i j hi hij hj => strict_inner (p := p) hb hk (i := i) (j := j) hi hij hj
  rcases Nat.lt_or_ge k p with h | h
  · have e1 := hk.periodic rfl k (by omega)
    have e2 := hk.periodic rfl (k + 1) (by omega)
    have := hin (k + (breaks.length - 1)) (k + 1 + (breaks.length - 1)) (by omega) (by omega) (by omega)
    linarith
  · rcases Nat.lt_or_ge k (p + (breaks.length - 1)) with h' | h'
    · exact hin k (k + 1) h (by omega) (by omega)
    · have e1 := hk.periodic rfl (k - (breaks.length - 1)) (by omega)
      have e2 := hk.periodic rfl (k - (breaks.length - 1) + 1) (by omega)
      have := hin (k - (breaks.length - 1)) (k - (breaks.length - 1) + 1) (by omega) (by omega) (by omega)
      rw [show k - (breaks.length - 1) + (breaks.length - 1) = k by omega] at e1
      rw [show k - (breaks.length - 1) + 1 + (breaks.length - 1) = k + 1 by omega] at e2
      linarith

theorem average_shift {breaks : List K} (hk : KnotsOf p true breaks t) (hp : 0 < p) :
    average t p (breaks.length - 1) =
      average t p 0 + (t (p + (breaks.length - 1)) - t p) := by
  have hp' : (p : K) ≠ 0 := by exact_mod_cast hp.ne'
  have e : ∀ k ∈ Finset.range p, t (breaks.length - 1 + 1 + k) =
      t (0 + 1 + k) + (t (p + (breaks.length - 1)) - t p) := fun k hk' => by
    have := hk.periodic rfl (0 + 1 + k) (by have := Finset.mem_range.1 hk'; omega)
    rw [show breaks.length - 1 + 1 + k = 0 + 1 + k + (breaks.length - 1) by omega]
    exact this
  rw [average, average, div_add' _ _ _ hp', Finset.sum_congr rfl e, Finset.sum_add_distrib,
    Finset.sum_const, Finset.card_range, nsmul_eq_mul, mul_comm (p : K)]

/-- Periodic non-uniform B-splines with at least as many cells as the degree: one point per cell,
increasing, in the domain.  Missing: fewer cells than the degree, where the property fails
(`C37_few_cells`). -/
theorem C37_non_uniform_periodic_partial (p : Nat) (hp : 0 < p) (breaks : List K) (hb : StrictBreaks breaks)
    (hpn : p ≤ breaks.length - 1) (hs : breaks.length + 2 * p < 2 ^ 63) :
    ∃ u d s, NUBS.mk' p true breaks = .ok u ∧
      u.grevilleDomain .periodic .periodic = .ok d ∧ u.grevilleSampling .periodic .periodic = .ok s ∧
      s.size.toNat = unknowns true p (breaks.length - 1) .periodic .periodic + 1 ∧
      GoodMesh s.coordinate d (unknowns true p (breaks.length - 1) .periodic .periodic)
        (breaks[0]'(by have := hb.1; omega)) (breaks[breaks.length - 1]'(by have := hb.1; omega)) := by
  have h2 := hb.1
  have hg := GoodBreaks.of_strict hb.1 hb.2
  obtain ⟨u, t, e, hper, h, hk⟩ := NUBS.mk'_is hp true hb.1 hs hg.sorted hg.lt
  have hsm := h.small
  obtain ⟨n, hn⟩ : ∃ n, n = breaks.length - 1 := ⟨_, rfl⟩
  have hstr := strict_periodic hb hk hpn
  have hsh := average_shift hk hp
  have ha : t p = breaks[0]'(by omega) := hk.inner 0 (by omega)
  have hbb : t (p + (breaks.length - 1)) = breaks[breaks.length - 1]'(by omega) := hk.inner _ (by omega)
  simp only [unknowns, edgeEquations, if_true, Nat.sub_zero]
  simp only [← ha, ← hbb]
  rw [← hn] at h hstr hsh hpn hsm ⊢
  have hmono : ∀ j, j < n → average t p j < average t p (j + 1) := by
    intro j hj
    refine average_step hp ?_
    exact (hstr (j + 1) (by omega)).trans_le (h.mono (by omega))
  have hex : ∃ c, t p ≤ average t p c := ⟨p - 1, average_ge hp fun k _ => h.mono (by omega)⟩
  classical
  obtain ⟨c, hc1, hc2⟩ : ∃ c, t p ≤ average t p c ∧ ∀ i, i < c → ¬ t p ≤ average t p i :=
    ⟨Nat.find hex, Nat.find_spec hex, fun i hi => Nat.find_min hex hi⟩
  have hcp : c < p := by
    by_contra hcon
    exact hc2 (p - 1) (by omega) (average_ge hp fun k _ => h.mono (by omega))
  have hsteps : ∀ k, k + 1 < n + 1 → shifted (average t p) n c (t (p + n) - t p) k <
      shifted (average t p) n c (t (p + n) - t p) (k + 1) := by
    intro k hk
    rw [shifted, shifted]
    by_cases g1 : k + 1 + c < n
    · rw [if_pos g1, if_pos (by omega), show k + 1 + c = k + c + 1 by omega]
      exact hmono _ (by omega)
    · rw [if_neg g1]
      by_cases g2 : k + c < n
      · rw [if_pos g2, show k + 1 + c - n = 0 by omega, ← hsh]
        have := hmono (k + c) (by omega)
        rwa [show k + c + 1 = n by omega] at this
      · rw [if_neg g2, show k + 1 + c - n = k + c - n + 1 by omega]
        have := hmono (k + c - n) (by omega)
        linarith
  have hfirst : t p ≤ shifted (average t p) n c (t (p + n) - t p) 0 := by
    rw [shifted, if_pos (by omega), Nat.zero_add]; exact hc1
  have hlast : shifted (average t p) n c (t (p + n) - t p) (n - 1) ≤ t (p + n) := by
    rw [shifted]
    split_ifs with g
    · exact average_le hp fun k hk => h.mono (by omega)
    · have := not_le.1 (hc2 (n - 1 + c - n) (by omega))
      linarith
  obtain ⟨s, es, h3, h4⟩ := goodMesh_list (N := n + 1) (a := t p)
    (b := shifted (average t p) n c (t (p + n) - t p) n)
    (shifted (average t p) n c (t (p + n) - t p)) (by omega) hsteps (fun _ => hfirst) (fun _ => le_rfl)
  have hco : ∀ k, k < n → s.coordinate (el () k) =
      .ok (shifted (average t p) n c (t (p + n) - t p) k) := by
    intro k hk
    rw [NonUniform.mk'] at es
    split_ifs at es
    obtain rfl := Res.ok.inj es
    rw [nu_coordinate_ok () _ (by omega) (by simp; omega)]
    simp
  refine ⟨u, _, s, e, ?_, ?_, h3, goodMesh_of (shifted (average t p) n c (t (p + n) - t p)) (by omega) hco
    (fun k hk => hsteps k (by omega)) (fun _ => hfirst) (fun _ => hlast)⟩
  · rw [nubs_grevilleDomain h (by rw [hper]; exact ⟨rfl, rfl⟩), hper]
    simp [unknowns, edgeEquations]
  · rw [NUBS.grevilleSampling]
    simp only [equations_eq, edgeEquations, Nat.add_zero, if_true]
    rw [grevilleAll_periodic h hper hcp (by omega) (fun i hi => not_le.1 (hc2 i hi)) hc1, es]

end NonUniform

/-! ## Knots as interpolation points -/

theorem toInt32_nat {k : Nat} (h : k < 2 ^ 31) :
    (BitVec.ofInt 64 (Periodic.toInt32 (BitVec.ofNat 64 k)).toInt : I64) = BitVec.ofNat 64 k := by
  have e : (BitVec.ofNat 64 k).toNat = k := by rw [BitVec.toNat_ofNat]; omega
  rw [toInt32_small (by rw [e]; exact h), e, BitVec.ofInt_natCast]

theorem knotsDomain_ok {n : Nat} (per : Bool) (h : n + 1 < 2 ^ 31) :
    knotsDomain (BitVec.ofNat 64 n) per = .ok (seg () 0 (if per then n else n + 1)) := by
  rw [knotsDomain]
  cases per
  · simp only [Bool.false_eq_true, if_false]
    rw [NUBS.ofNat_succ, toInt32_nat h, ve1_eq, show el1 0 = el () 0 from rfl, ofSize_nat, Nat.zero_add]
  · simp only [if_true]
    rw [show (BitVec.ofNat 64 n + 0 : U64) = BitVec.ofNat 64 n by simp, toInt32_nat (by omega), ve1_eq,
      show el1 0 = el () 0 from rfl, ofSize_nat, Nat.zero_add]

/-- The knots of an interval as points of a uniform sampling: one point per break point, the last one
left out when the splines are periodic. -/
theorem C37_knots_uniform (a b : K) (hab : a < b) (n : Nat) (hn : 0 < n) (hs : n + 1 < 2 ^ 31)
    (per : Bool) :
    ∃ d s, knotsDomain (BitVec.ofNat 64 n) per = .ok d ∧ knotsUniform a b (BitVec.ofNat 64 n) = .ok s ∧
      GoodMesh s.coordinate d (if per then n else n + 1) a b := by
  have h0 := step_pos hab (show 1 < n + 1 by omega)
  rw [Nat.add_sub_cancel] at h0
  have hn' : (0 : K) < n := by exact_mod_cast hn
  have e : knotsUniform a b (BitVec.ofNat 64 n) = .ok ⟨a, (b - a) / (n : K), el () 0⟩ := by
    have h1 : decide (1 < ((n + 1 : Nat) : Int)) = true := by simpa using hn
    rw [knotsUniform, NUBS.ofNat_succ, ve1_eq]
    simp only [Uniform.init, hab, decide_true, Res.guardAbort_true, vec, Vect.value,
      toInt_ofNat (show n + 1 < 2 ^ 63 by omega), h1, Res.ok_bind]
    rw [subInt_nat () (by omega) (by omega), Res.ok_bind]
    simp only [Vect.value, Res.ok_bind, Nat.add_sub_cancel, toInt_ofNat (show n < 2 ^ 63 by omega),
      Int.cast_natCast, Uniform.mk', h0, decide_true, Res.guardAbort_true]
    rw [← vec, show (Elem.createReference () : Elem Unit) = el () 0 from rfl]
    simp only [Res.pure_eq, Res.ok_bind, ofSize_nat]
  have hle : (if per then n else n + 1) ≤ n + 1 := by split <;> omega
  have hpos : 0 < if per then n else n + 1 := by split <;> omega
  refine ⟨_, _, knotsDomain_ok per hs, e, goodMesh_of (fun k => a + (k : K) * ((b - a) / (n : K)))
    (by omega) (fun k hk => uniform_coordinate _ _ (by omega)) (fun k _ => ?_) (fun _ => by simp)
    fun _ => ?_⟩
  · push_cast; linarith
  · have h1 : (((if per then n else n + 1) - 1 : Nat) : K) ≤ n := by exact_mod_cast (by omega)
    have := mul_le_mul_of_nonneg_right h1 h0.le
    have e : (n : K) * ((b - a) / (n : K)) = b - a := by field_simp
    linarith

/-- The break points as points of a non-uniform sampling. -/
theorem knotsNonUniform_ok {coord : Elem Unit → Res K} {p n : Nat} {x : Nat → K} (hs : p + n + 1 < 2 ^ 63)
    (hx : ∀ k, k < n + 1 → coord (el () (p + k)) = .ok (x k)) :
    knotsNonUniform (seg () p (p + (n + 1))) coord = NonUniform.mk' () ((List.range (n + 1)).map x) := by
  obtain ⟨p2, e2, s2, v2, -⟩ := setLoop_ok (f := fun i (pts : Arr K) => do
      let k ← indexOf (el () (p + i)) (el () p)
      let x ← coord (el () (p + i))
      Arr.wr pts k x) (pos := id) (v := x) (m := n + 1) (N := n + 1)
    (fun k arr hk hsz => by
      rw [indexOf_nat (by omega) (by omega), Res.ok_bind, hx k hk, Res.ok_bind, Arr.wr_ok (by omega),
        Nat.add_sub_cancel_left]; rfl)
    (fun i j hij _ => by simpa using hij.ne) (Arr.const (n + 1) 0) rfl
  have h3 := Arr.toList_ok _ (fun i hi => v2 i (by rw [s2] at hi; exact hi))
  rw [s2] at h3
  rw [knotsNonUniform, seg_size (by omega), Res.ok_bind, Nat.add_sub_cancel_left, BitVec.toNat_ofNat,
    Nat.mod_eq_of_lt (by omega), One.front, hostForEach1_seg (by omega) (by omega), Nat.add_sub_cancel_left,
    e2, Res.ok_bind, h3, Res.ok_bind]

theorem knots_mesh {p n : Nat} {t : Nat → K} {coord : Elem Unit → Res K} (hs : p + n + 1 < 2 ^ 63)
    (hs' : n + 1 < 2 ^ 31) (hn : 0 < n) (hx : ∀ k, k < n + 1 → coord (el () (p + k)) = .ok (t (p + k)))
    (hst : ∀ k, k < n → t (p + k) < t (p + k + 1)) (per : Bool) :
    ∃ d s, knotsDomain (BitVec.ofNat 64 n) per = .ok d ∧
      knotsNonUniform (seg () p (p + (n + 1))) coord = .ok s ∧
      GoodMesh s.coordinate d (if per then n else n + 1) (t p) (t (p + n)) := by
  obtain ⟨s, es, -, -⟩ := goodMesh_list (N := n + 1) (a := t p) (b := t (p + n)) (fun k => t (p + k))
    (by omega) (fun k hk => hst k (by omega)) (fun _ => le_rfl) (fun _ => le_rfl)
  have hle : (if per then n else n + 1) ≤ n + 1 := by split <;> omega
  have hco : ∀ k, k < n + 1 → s.coordinate (el () k) = .ok (t (p + k)) := by
    intro k hk
    rw [NonUniform.mk'] at es
    split_ifs at es
    obtain rfl := Res.ok.inj es
    rw [nu_coordinate_ok () _ (by omega) (by simp; omega)]
    simp
  refine ⟨_, s, knotsDomain_ok per hs', by rw [knotsNonUniform_ok hs hx, es], goodMesh_of (fun k => t (p + k))
    (by omega) (fun k hk => hco k (by omega)) (fun k hk => hst k (by omega)) (fun _ => le_rfl) fun _ => ?_⟩
  cases per
  · simp
  · simp only [if_true]
    have := hst (n - 1) (by omega)
    rw [show p + (n - 1) + 1 = p + n by omega] at this
    exact this.le

/-- The knots of uniform B-splines as points of a non-uniform sampling. -/
theorem C37_knots_uniform_list (p : Nat) (hp : 0 < p) (per : Bool) (a b : K) (hab : a < b) (n : Nat)
    (hn : 0 < n) (hs : n + 1 + 2 * p < 2 ^ 63) (hs' : n + 1 < 2 ^ 31) :
    ∃ u d s, UBS.mk' p per a b (BitVec.ofNat 64 n) = .ok u ∧
      knotsDomain (BitVec.ofNat 64 n) per = .ok d ∧
      knotsNonUniform u.breakDom u.knots.coordinate = .ok s ∧
      GoodMesh s.coordinate d (if per then n else n + 1) a b := by
  obtain ⟨d, s, h1, h2, h3⟩ := knots_mesh (t := Spec.uniformKnot a b n p) (p := p) (n := n)
    (coord := (ubs p per a b n).knots.coordinate) (by omega) hs' hn
    (fun k hk => ubs_coordinate (by omega))
    (fun k _ => uniformKnot_strictMono hab hn (Nat.lt_succ_self _)) per
  rw [uniformKnot_first, uniformKnot_last hn] at h3
  exact ⟨_, d, s, UBS.mk'_ok hp per hab hn hs, h1, h2, h3⟩

/-- The break points of non-uniform B-splines as points. -/
theorem C37_knots_non_uniform (p : Nat) (hp : 0 < p) (per : Bool) (breaks : List K)
    (hb : StrictBreaks breaks) (hs : breaks.length + 2 * p < 2 ^ 63) (hs' : breaks.length < 2 ^ 31) :
    ∃ u c d s, NUBS.mk' p per breaks = .ok u ∧ u.ncells = .ok c ∧ knotsDomain c per = .ok d ∧
      knotsNonUniform u.breakDom u.knots.coordinate = .ok s ∧
      GoodMesh s.coordinate d (if per then breaks.length - 1 else breaks.length)
        (breaks[0]'(by have := hb.1; omega)) (breaks[breaks.length - 1]'(by have := hb.1; omega)) := by
  have h2 := hb.1
  have hg := GoodBreaks.of_strict hb.1 hb.2
  obtain ⟨u, t, e, hper, h, hk⟩ := NUBS.mk'_is hp per hb.1 hs hg.sorted hg.lt
  obtain ⟨d, s, h1, h2', h3⟩ := knots_mesh (t := t) (p := p) (n := breaks.length - 1)
    (coord := u.knots.coordinate) (by omega) (by omega) (by omega) (fun k hk => h.coord _ (by omega))
    (fun k hk' => strict_inner hb hk (by omega) (Nat.lt_succ_self _) (by omega)) per
  refine ⟨u, _, d, s, e, h.ncells, h1, by rw [h.breakDom]; exact h2', ?_⟩
  have ha : t p = breaks[0]'(by omega) := hk.inner 0 (by omega)
  have hbb : t (p + (breaks.length - 1)) = breaks[breaks.length - 1]'(by omega) := hk.inner _ (by omega)
  rw [ha, hbb, show breaks.length - 1 + 1 = breaks.length by omega] at h3
  exact h3

/-- The number of knots is the number of unknowns exactly when the splines are periodic or the degree
is odd, for the closures accepted by the class. -/
theorem C37_knots_count (p : Nat) (per : Bool) (n : Nat) (hn : 0 < n) (lo up : Closure)
    (hf : Fits per lo up) (hc : knotsClosures lo up = .ok ()) :
    ((if per then n else n + 1) = unknowns per p n lo up ↔ per = true ∨ p % 2 = 1) := by
  have hg : lo ≠ .greville ∧ up ≠ .greville := by
    by_contra hcon
    rw [knotsClosures, decide_eq_false hcon] at hc
    cases hc
  cases per
  · have hdef : ∀ c : Closure, c ≠ .periodic → c ≠ .greville → edgeEquations c p = p / 2 := by
      intro c h1 h2; cases c <;> simp_all [edgeEquations]
    simp only [unknowns, hdef lo hf.1 hg.1, hdef up hf.2 hg.2, Bool.false_eq_true, if_false, false_or]
    omega
  · obtain ⟨rfl, rfl⟩ := hf
    simp [unknowns, edgeEquations]

/-- The Greville closure does not compile. -/
theorem C37_knots_requires (lo up : Closure) :
    knotsClosures lo up = .ill ↔ lo = .greville ∨ up = .greville := by
  cases lo <;> cases up <;> simp [knotsClosures, Res.guardIll]

/-! ## Concrete cases -/

/-- The points of cubic splines, all closures with the same number of points. -/
example : ((NUBS.mk' 3 false [(0 : Rat), 1, 3, 4] >>= fun u => u.grevilleSampling .hermite .hermite) >>=
    fun s => .ok s.points) = .ok [1 / 3, 4 / 3, 8 / 3, 11 / 3] := by decide +kernel

/-- One cell, derivatives at both edges. -/
example : ((NUBS.mk' 2 false [(0 : Rat), 1] >>= fun u => u.grevilleSampling .hermite .hermite) >>=
    fun s => .ok s.points) = .ok [1 / 2] := by decide +kernel

example : ((NUBS.mk' 3 true [(0 : Rat), 1, 3, 4] >>= fun u => u.grevilleSampling .periodic .periodic) >>=
    fun s => .ok s.points) = .ok [0, 4 / 3, 8 / 3, 4] := by decide +kernel

/-- Fewer cells than the degree: the only point is outside of the domain `[0, 1]`; it should be in it. -/
theorem C37_few_cells :
    ((NUBS.mk' 5 true [(0 : Rat), 1] >>= fun u => u.grevilleSampling .periodic .periodic) >>=
      fun s => .ok s.points) = .ok [-1, 0] ∧
    (NUBS.mk' 5 true [(1 : Rat), 2] >>= fun u => u.grevilleSampling .periodic .periodic) = .ub := by
  constructor <;> decide +kernel

example : StrictBreaks [(0 : Rat), 1, 3, 4] := by
  refine ⟨by decide, ?_⟩
  intro i j hij hj
  simp only [List.length_cons, List.length_nil] at hj
  interval_cases j <;> interval_cases i <;> norm_num

end DDC.Props
