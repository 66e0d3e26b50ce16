import Verif.Props.C26
import Verif.Props.C28
import Verif.Props.C29
import Mathlib.Tactic.LinearCombination

/-!
# C27 — ghosted initialisation partitions the ghosted domain
-/

namespace DDC.Props

open Tup Dom Spec One

set_option linter.unusedSectionVars false

variable {τ K : Type} [DecidableEq τ] [Field K] [LinearOrder K]

/-- `i` is an index of the one-dimensional domain `d`. -/
def In (t : τ) (d : Dom τ) (i : Nat) : Prop := lo t d ≤ i ∧ i < hi t d

/-- Specification: `pre`, `main` and `post` are valid domains with `g1`, `n` and `g2` points that
follow each other and together make up `ghosted`, each index of which belongs to exactly one. -/
structure GhostPartition (t : τ) (ghosted pre main post : Dom τ) (g1 n g2 : Nat) : Prop where
  valid : ∀ d ∈ [ghosted, pre, main, post], tags d = [t] ∧ Valid d
  sizes : len t pre = g1 ∧ len t main = n ∧ len t post = g2 ∧ len t ghosted = g1 + n + g2
  cover : ∀ i, In t ghosted i ↔ In t pre i ∨ In t main i ∨ In t post i
  order : ∀ i j, (In t pre i ∧ In t main j → i < j) ∧ (In t main i ∧ In t post j → i < j) ∧
    (In t pre i ∧ In t post j → i < j)

theorem seg_lo {t : τ} {x y : Nat} (h : x < 2 ^ 64) : lo t (seg t x y) = x := by
  rw [seg, lo_ok (One.get t _), BitVec.toNat_ofNat]; omega

theorem seg_hi {t : τ} {x y : Nat} (h : y < 2 ^ 64) : hi t (seg t x y) = y := by
  rw [seg, hi_ok (One.get t _), BitVec.toNat_ofNat]; omega

theorem seg_valid {t : τ} {x y : Nat} (h : x ≤ y) (hy : y < 2 ^ 63) :
    tags (seg t x y) = [t] ∧ Valid (seg t x y) := by
  refine ⟨rfl, by simp [seg], fun q hq => ?_⟩
  simp only [seg, tags_cons, tags_nil, List.mem_singleton] at hq
  subst hq
  rw [len, seg_lo (by omega), seg_hi (by omega)]; omega

theorem partition_seg (t : τ) (g1 n g2 : Nat) (h : g1 + n + g2 < 2 ^ 63) :
    GhostPartition t (seg t 0 (n + g1 + g2)) (seg t 0 g1) (seg t g1 (g1 + n))
      (seg t (g1 + n) (n + g1 + g2)) g1 n g2 := by
  refine ⟨?_, ?_, ?_, ?_⟩
  · intro d hd
    simp only [List.mem_cons, List.not_mem_nil, or_false] at hd
    rcases hd with rfl | rfl | rfl | rfl <;> exact seg_valid (by omega) (by omega)
  · simp only [len]
    rw [seg_lo (by omega), seg_hi (by omega), seg_lo (by omega), seg_hi (by omega), seg_lo (by omega),
      seg_hi (by omega), seg_lo (by omega), seg_hi (by omega)]
    omega
  · intro i
    simp only [In]
    rw [seg_lo (by omega), seg_hi (by omega), seg_lo (by omega), seg_hi (by omega), seg_lo (by omega),
      seg_hi (by omega), seg_lo (by omega), seg_hi (by omega)]
    omega
  · intro i j
    simp only [In]
    rw [seg_lo (by omega), seg_hi (by omega), seg_lo (by omega), seg_hi (by omega), seg_lo (by omega),
      seg_hi (by omega)]
    omega

/-- The domains computed by the three `init_ghosted`. -/
theorem ghost_domains (t : τ) (g1 n g2 : Nat) (h : g1 + n + g2 < 2 ^ 63) :
    Vect.add (vec t n) (vec t g1) = .ok (vec t (n + g1)) ∧
    Vect.add (vec t (n + g1)) (vec t g2) = .ok (vec t (n + g1 + g2)) ∧
    Dom.ofSize (el t 0) (vec t (n + g1 + g2)) = .ok (seg t 0 (n + g1 + g2)) ∧
    Dom.takeFirst (seg t 0 (n + g1 + g2)) (vec t g1) = .ok (seg t 0 g1) ∧
    Dom.remove (seg t 0 (n + g1 + g2)) (vec t g1) (vec t g2) = .ok (seg t g1 (g1 + n)) ∧
    Dom.takeLast (seg t 0 (n + g1 + g2)) (vec t g2) = .ok (seg t (g1 + n) (n + g1 + g2)) := by
  refine ⟨add_nat t (by omega), add_nat t (by omega), ?_, ?_, ?_, ?_⟩
  · rw [ofSize_nat]; simp
  · rw [One.takeFirst]; simp
  · rw [One.remove t (by omega) (by omega)]
    congr 2 <;> omega
  · rw [One.takeLast t (by omega) (by omega)]
    congr 2; omega

/-- Every index of the ghosted domain belongs to exactly one of the three domains. -/
theorem C27_exactly_one (t : τ) (ghosted pre main post : Dom τ) (g1 n g2 : Nat)
    (h : GhostPartition t ghosted pre main post g1 n g2) (i : Nat) (hi : In t ghosted i) :
    (In t pre i ∧ ¬ In t main i ∧ ¬ In t post i) ∨ (¬ In t pre i ∧ In t main i ∧ ¬ In t post i) ∨
      (¬ In t pre i ∧ ¬ In t main i ∧ In t post i) := by
  have h1 := (h.order i i).1
  have h2 := (h.order i i).2.1
  have h3 := (h.order i i).2.2
  have h1 := fun a b => Nat.lt_irrefl i (h1 ⟨a, b⟩)
  have h2 := fun a b => Nat.lt_irrefl i (h2 ⟨a, b⟩)
  have h3 := fun a b => Nat.lt_irrefl i (h3 ⟨a, b⟩)
  rcases (h.cover i).1 hi with h' | h' | h'
  · exact .inl ⟨h', h1 h', h3 h'⟩
  · exact .inr (.inl ⟨fun e => h1 e h', h', h2 h'⟩)
  · exact .inr (.inr ⟨fun e => h3 e h', fun e => h2 e h', h'⟩)

/-! ## Uniform sampling -/

section

variable [IsStrictOrderedRing K]

/-- Uniform `init_ghosted(a, b, n, g1, g2)`: the domains partition the ghosted domain with the
requested sizes; all points of the ghosted domain are equally spaced and those of the main domain go
from `a` to `b`. -/
theorem C27_uniform (t : τ) (a b : K) (hab : a < b) (n g1 g2 : Nat) (hn : 1 < n)
    (h : g1 + n + g2 < 2 ^ 63) :
    ∃ u main ghosted pre post,
      Uniform.initGhosted t a b [(t, BitVec.ofNat 64 n)] [(t, BitVec.ofNat 64 g1)]
        [(t, BitVec.ofNat 64 g2)] = .ok (u, main, ghosted, pre, post) ∧
      GhostPartition t ghosted pre main post g1 n g2 ∧
      u.rmin main = .ok a ∧ u.rmax main = .ok b ∧ u.rlength main = .ok (b - a) ∧
      u.step * ((n - 1 : Nat) : K) = b - a ∧
      ∀ k, k < g1 + n + g2 → u.coordinate [(t, BitVec.ofNat 64 (lo t ghosted + k))] =
        .ok (a + ((k : K) - (g1 : K)) * u.step) := by
  set s := (b - a) / ((n - 1 : Nat) : K) with hs
  have hs0 : 0 < s := step_pos hab hn
  have hn1 : (0 : K) < ((n - 1 : Nat) : K) := by exact_mod_cast (by omega : 0 < n - 1)
  have hsn : s * ((n - 1 : Nat) : K) = b - a := div_mul_cancel₀ _ hn1.ne'
  have href : (Elem.createReference t : Elem τ) = el t 0 := rfl
  set u : Uniform τ K := ⟨a - (g1 : K) * s, s, el t 0⟩ with hu
  have hco : ∀ i, i < 2 ^ 63 → u.coordinate (el t i) = .ok (a + ((i : K) - (g1 : K)) * s) := by
    intro i hi
    rw [hu, ← href, coordinate_ok t _ s hi]
    congr 1; ring
  have hmin : u.rmin (seg t g1 (g1 + n)) = .ok a := by
    rw [Uniform.rmin, One.front, hco g1 (by omega)]; simp
  have hmax : u.rmax (seg t g1 (g1 + n)) = .ok b := by
    rw [Uniform.rmax, back_nat t (by omega), Res.ok_bind, hco _ (by omega)]
    have e : (((g1 + n - 1 : Nat) : K) - (g1 : K)) = ((n - 1 : Nat) : K) := by
      have : g1 + n - 1 = g1 + (n - 1) := by omega
      rw [this]; push_cast; ring
    rw [e, mul_comm, hsn]; congr 1; ring
  obtain ⟨d1, d2, d3, d4, d5, d6⟩ := ghost_domains t g1 n g2 h
  refine ⟨u, seg t g1 (g1 + n), seg t 0 (n + g1 + g2), seg t 0 g1, seg t (g1 + n) (n + g1 + g2), ?_,
    partition_seg t g1 n g2 h, hmin, hmax, by rw [Uniform.rlength, hmax, hmin]; rfl, hsn, ?_⟩
  · have h1 : decide (1 < ((n : Nat) : Int)) = true := by simpa using hn
    simp only [Uniform.initGhosted, hab, decide_true, Res.guardAbort_true, Vect.value,
      toInt_ofNat (show n < 2 ^ 63 by omega), toInt_ofNat (show g1 < 2 ^ 63 by omega), h1, Res.ok_bind]
    rw [subInt_nat t (by omega) (by omega), Res.ok_bind]
    simp only [Res.ok_bind, toInt_ofNat (show n - 1 < 2 ^ 63 by omega), Int.cast_natCast, ← hs,
      Uniform.mk', hs0, decide_true, Res.guardAbort_true, Res.pure_eq, href]
    rw [← vec, ← vec, ← vec, d1, Res.ok_bind, d2, Res.ok_bind, d3, Res.ok_bind, d4, Res.ok_bind, d5,
      Res.ok_bind, d6]
    rfl
  · intro k hk
    rw [seg_lo (by omega), Nat.zero_add]
    exact hco k (by omega)

/-- The overload with a single ghost count uses it on both sides. -/
theorem C27_uniform_symmetric (t : τ) (a b : K) (n g : Vect τ) :
    Uniform.initGhosted1 t a b n g = Uniform.initGhosted t a b n g g := rfl

/-- The assertions of the uniform version. -/
theorem C27_uniform_requires (t : τ) (a b : K) (n g1 g2 : I64) (h : b ≤ a ∨ n.toInt ≤ 1) :
    Uniform.initGhosted t a b [(t, n)] [(t, g1)] [(t, g2)] = .abort := by
  by_cases hab : a < b
  · have : decide (1 < n.toInt) = false := by
      rcases h with h | h
      · exact absurd hab (not_lt.2 h)
      · simpa using h
    simp [Uniform.initGhosted, hab, Vect.value, this]
  · simp [Uniform.initGhosted, hab]

end

/-! ## Non-uniform sampling -/

/-- Non-uniform `init_ghosted(dom, pre, post)`: it throws exactly when the concatenation
`pre, dom, post` is not sorted; otherwise the domains partition the ghosted domain, each of them
carrying the points it was given. -/
theorem C27_non_uniform (t : τ) (pts pre post : List K) (h0 : pts ≠ [])
    (h : pre.length + pts.length + post.length < 2 ^ 63) :
    (¬ Increasing (pre ++ pts ++ post) → NonUniform.initGhosted t pts pre post = .throw) ∧
    (Increasing (pre ++ pts ++ post) → ∃ u main ghosted preD postD,
      NonUniform.initGhosted t pts pre post = .ok (u, main, ghosted, preD, postD) ∧
      GhostPartition t ghosted preD main postD pre.length pts.length post.length ∧
      (∀ k (hk : k < pre.length), u.coordinate [(t, BitVec.ofNat 64 (lo t preD + k))] = .ok pre[k]) ∧
      (∀ k (hk : k < pts.length), u.coordinate [(t, BitVec.ofNat 64 (lo t main + k))] = .ok pts[k]) ∧
      (∀ k (hk : k < post.length), u.coordinate [(t, BitVec.ofNat 64 (lo t postD + k))] = .ok post[k]) ∧
      u.rmin main = .ok (pts.head h0) ∧ u.rmax main = .ok (pts.getLast h0)) := by
  have h1 : pts.isEmpty = false := by simpa using h0
  have hpos : 0 < pts.length := List.length_pos_iff.2 h0
  constructor
  · intro hi
    have : isSorted (pre ++ pts ++ post) = false := by
      cases hs : isSorted (pre ++ pts ++ post) with
      | true => exact absurd ((isSorted_iff _).1 hs) hi
      | false => rfl
    simp only [NonUniform.initGhosted, NonUniform.mk', h1, this, Bool.not_false, Res.guardAbort_true,
      Res.ok_bind]
    rfl
  · intro hi
    have hs := (isSorted_iff _).2 hi
    obtain ⟨d1, d2, d3, d4, d5, d6⟩ := ghost_domains t pre.length pts.length post.length h
    have hlen : (pre ++ pts ++ post).length = pre.length + pts.length + post.length := by simp; omega
    have hco : ∀ i (hi : i < (pre ++ pts ++ post).length),
        (⟨pre ++ pts ++ post, el t 0⟩ : NonUniform τ K).coordinate (el t i) =
          .ok ((pre ++ pts ++ post)[i]) := fun i hi =>
      nu_coordinate_ok t (pre ++ pts ++ post) (by omega) hi
    have hmain : ∀ k (hk : k < pts.length), (⟨pre ++ pts ++ post, el t 0⟩ : NonUniform τ K).coordinate
        (el t (pre.length + k)) = .ok pts[k] := by
      intro k hk
      rw [hco _ (by omega), List.getElem_append_left (by simp; omega),
        List.getElem_append_right (by omega)]
      simp
    refine ⟨⟨pre ++ pts ++ post, el t 0⟩, seg t pre.length (pre.length + pts.length),
      seg t 0 (pts.length + pre.length + post.length), seg t 0 pre.length,
      seg t (pre.length + pts.length) (pts.length + pre.length + post.length), ?_,
      partition_seg t _ _ _ h, ?_, ?_, ?_, ?_, ?_⟩
    · have href : (Elem.createReference t : Elem τ) = el t 0 := rfl
      simp only [NonUniform.initGhosted, NonUniform.mk', h1, Bool.not_false, Res.guardAbort_true,
        Res.ok_bind, hs, if_true, href]
      rw [← vec, ← vec, ← vec, d1, Res.ok_bind, d2, Res.ok_bind, d3, Res.ok_bind, d4, Res.ok_bind, d5,
        Res.ok_bind, d6]
      rfl
    · intro k hk
      rw [seg_lo (by omega), Nat.zero_add, ← el, hco k (by omega),
        List.getElem_append_left (by simp; omega), List.getElem_append_left hk]
    · intro k hk
      rw [seg_lo (by omega)]
      exact hmain k hk
    · intro k hk
      rw [seg_lo (by omega), ← el, hco _ (by omega),
        List.getElem_append_right (by simp)]
      simp
    · rw [NonUniform.rmin, One.front]
      have := hmain 0 hpos
      rw [Nat.add_zero] at this
      rw [this, List.head_eq_getElem]
    · rw [NonUniform.rmax, back_nat t (by omega), Res.ok_bind]
      have := hmain (pts.length - 1) (by omega)
      have e : pre.length + (pts.length - 1) = pre.length + pts.length - 1 := by omega
      rw [e] at this
      rw [this, List.getLast_eq_getElem]

/-- No point in the main domain: the assertion fails. -/
theorem C27_non_uniform_requires (t : τ) (pre post : List K) :
    NonUniform.initGhosted t [] pre post = .abort := rfl

/-! ## Periodic sampling -/

section

variable [IsStrictOrderedRing K]

/-- Periodic `init_ghosted(a, b, n, p, g1, g2)`: the domains partition the ghosted domain with the
requested sizes; the coordinates of the main domain go from `a` to `b` provided the points up to the
last one of the main domain stay within the first half period.  Missing with respect to the claim:
main domains reaching beyond it, where the coordinates are wrapped and the claim is false
(`C27_periodic_wraps`). -/
theorem C27_periodic_partial (t : τ) (a b : K) (hab : a < b) (n p g1 g2 : Nat) (hn : 1 < n)
    (hp : 1 < p) (hp' : p < 2 ^ 63) (h : g1 + n + g2 < 2 ^ 63) :
    ∃ u main ghosted pre post,
      Periodic.initGhosted t a b [(t, BitVec.ofNat 64 n)] [(t, BitVec.ofNat 64 p)]
        [(t, BitVec.ofNat 64 g1)] [(t, BitVec.ofNat 64 g2)] = .ok (u, main, ghosted, pre, post) ∧
      GhostPartition t ghosted pre main post g1 n g2 ∧
      u.step * ((n - 1 : Nat) : K) = b - a ∧ u.origin = a - (g1 : K) * u.step ∧
      u.period.toNat = p ∧ u.ref = [(t, 0)] ∧ lo t ghosted = 0 ∧
      (p ≤ 2 ^ 31 → g1 + n ≤ p - p / 2 →
        u.rmin main = .ok a ∧ u.rmax main = .ok b ∧ u.rlength main = .ok (b - a)) := by
  set s := (b - a) / ((n - 1 : Nat) : K) with hs
  have hs0 : 0 < s := step_pos hab hn
  have hn1 : (0 : K) < ((n - 1 : Nat) : K) := by exact_mod_cast (by omega : 0 < n - 1)
  have hsn : s * ((n - 1 : Nat) : K) = b - a := div_mul_cancel₀ _ hn1.ne'
  have href : (Elem.createReference t : Elem τ) = el t 0 := rfl
  set u : Periodic τ K := ⟨a - (g1 : K) * s, s, BitVec.ofNat 64 p, el t 0⟩ with hu
  have hper : u.period.toNat = p := by rw [hu, BitVec.toNat_ofNat]; omega
  obtain ⟨d1, d2, d3, d4, d5, d6⟩ := ghost_domains t g1 n g2 h
  refine ⟨u, seg t g1 (g1 + n), seg t 0 (n + g1 + g2), seg t 0 g1, seg t (g1 + n) (n + g1 + g2), ?_,
    partition_seg t g1 n g2 h, hsn, rfl, hper, rfl, seg_lo (by omega), ?_⟩
  · have h1 : decide (1 < ((n : Nat) : Int)) = true := by simpa using hn
    have h2 : decide (1 < ((p : Nat) : Int)) = true := by simpa using hp
    have h3 : decide (0 < BitVec.ofNat 64 p) = true := by
      rw [decide_eq_true_eq, BitVec.lt_def, BitVec.toNat_ofNat]
      show 0 % 2 ^ 64 < _
      omega
    simp only [Periodic.initGhosted, hab, decide_true, Res.guardAbort_true, Vect.value,
      toInt_ofNat (show n < 2 ^ 63 by omega), toInt_ofNat (show g1 < 2 ^ 63 by omega), toInt_ofNat hp',
      h1, h2, Res.ok_bind]
    rw [subInt_nat t (by omega) (by omega), Res.ok_bind]
    simp only [Res.ok_bind, toInt_ofNat (show n - 1 < 2 ^ 63 by omega), Int.cast_natCast, ← hs,
      Periodic.mk', hs0, decide_true, Res.guardAbort_true, Res.pure_eq, href, h3]
    rw [← vec, ← vec, ← vec, d1, Res.ok_bind, d2, Res.ok_bind, d3, Res.ok_bind, d4, Res.ok_bind, d5,
      Res.ok_bind, d6]
    rfl
  · intro hp2 hg
    have hmin : u.rmin (seg t g1 (g1 + n)) = .ok a := by
      rw [Periodic.rmin, One.front, el, C29_first_half u t rfl p g1 hper hp2 (by omega), hu]
      congr 1; ring
    have hmax : u.rmax (seg t g1 (g1 + n)) = .ok b := by
      rw [Periodic.rmax, back_nat t (by omega), Res.ok_bind, el,
        C29_first_half u t rfl p _ hper hp2 (by omega), hu]
      have e : ((g1 + n - 1 : Nat) : K) = (g1 : K) + ((n - 1 : Nat) : K) := by
        have : g1 + n - 1 = g1 + (n - 1) := by omega
        rw [this]; push_cast; ring
      simp only [e]
      congr 1
      linear_combination hsn
    exact ⟨hmin, hmax, by rw [Periodic.rlength, hmax, hmin]; rfl⟩

/-- The overload with a single ghost count uses it on both sides. -/
theorem C27_periodic_symmetric (t : τ) (a b : K) (n p g : Vect τ) :
    Periodic.initGhosted1 t a b n p g = Periodic.initGhosted t a b n p g g := rfl

end

set_option synthInstance.maxSize 1000 in
set_option synthInstance.maxHeartbeats 200000 in
/-- The main domain of a ghosted periodic sampling need not start at `a`: with two ghosts and period
four, `[0, 1]` sampled by two points starts at coordinate `-4`. -/
theorem C27_periodic_wraps :
    ∃ u main ghosted pre post,
      Periodic.initGhosted "x" (0 : Rat) 1 [("x", 2)] [("x", 4)] [("x", 2)] [("x", 0)] =
        .ok (u, main, ghosted, pre, post) ∧
      u.rmin main = .ok (-4) ∧ u.rmax main = .ok (-3) := by
  refine ⟨⟨-2, 1, 4, [("x", 0)]⟩, [("x", (2, 4))], [("x", (0, 4))], [("x", (0, 2))],
    [("x", (4, 4))], by decide +kernel, by decide +kernel, by decide +kernel⟩

set_option synthInstance.maxSize 1000 in
set_option synthInstance.maxHeartbeats 200000 in
/-- Three points from 0 to 1, two ghosts before and one after. -/
example : ∃ u main ghosted pre post,
    Uniform.initGhosted "x" (0 : Rat) 1 [("x", 3)] [("x", 2)] [("x", 1)] =
      .ok (u, main, ghosted, pre, post) ∧ u.origin = -1 ∧ u.rmin ghosted = .ok (-1) ∧
      u.rmin main = .ok 0 ∧ u.rmax main = .ok 1 ∧ u.rmax post = .ok (3 / 2) := by
  refine ⟨⟨-1, 1 / 2, [("x", 0)]⟩, [("x", (2, 5))], [("x", (0, 6))], [("x", (0, 2))],
    [("x", (5, 6))], by decide +kernel, rfl, by decide +kernel, by decide +kernel, by decide +kernel,
    by decide +kernel⟩

set_option synthInstance.maxSize 1000 in
set_option synthInstance.maxHeartbeats 200000 in
/-- A non-uniform case. -/
example : ∃ u main ghosted pre post,
    NonUniform.initGhosted "x" [(0 : Rat), 1 / 4, 1] [-1] [2, 3] =
      .ok (u, main, ghosted, pre, post) ∧ u.rmin main = .ok 0 ∧ u.rmax main = .ok 1 ∧
      u.rmax post = .ok 3 := by
  refine ⟨⟨[-1, 0, 1 / 4, 1, 2, 3], [("x", 0)]⟩, [("x", (1, 4))], [("x", (0, 6))], [("x", (0, 1))],
    [("x", (4, 6))], by decide +kernel, by decide +kernel, by decide +kernel, by decide +kernel⟩

end DDC.Props
