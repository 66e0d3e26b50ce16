import Verif.Model.MultiBuilder
import Verif.Props.C41b

/-!
# C46: the builders in two and three dimensions

* `C46_2d_partial`, `C46_3d_partial`: the coefficients are those of a spline that meets all the conditions of the
  interpolation problem: values, derivatives and mixed derivatives.
* `C46_2d_ignores`, `C46_3d_ignores_partial`: the boundary data that has an influence.
* `C46_mixed_not_needed`, `C46_mixed_rejected`: the builder in three dimensions needs mixed derivatives that do not
  take part in the problem, and fails when it is given some.
-/

set_option linter.unusedSectionVars false

namespace DDC.Props

open One Dom LinProb Spec Builder

variable {K : Type} [Field K] [LinearOrder K] [IsStrictOrderedRing K]

/-! ## Specification -/

/-- A condition of an interpolation problem in one dimension: the value at the `k`-th point, or the `i`-th of the
derivatives at an end. -/
inductive Cond
  | point (k : Nat)
  | side (s : Side) (i : Nat)

/-- The value of the condition on the `J`-th B-spline; the derivatives start at the order `p % 2`. -/
noncomputable def Cond.form (t : Nat → K) (p n : Nat) (X : Nat → K) : Cond → Nat → K
  | .point k, J => bspline t (t (p + n)) p J (X k)
  | .side .lower i, J => basisDeriv t p p (i + p % 2) J (t p)
  | .side .upper i, J => basisDeriv t p (p + n - 1) (i + p % 2) J (t (p + n))

/-- The conditions of the problem with `N` points and the closures `c`. -/
def Cond.Among (p N : Nat) (c : Side → Closure) : Cond → Prop
  | .point k => k < N
  | .side s i => i < edgeEquations (c s) p

/-- The element of a chunk that may be absent. -/
def at2 (d : Option (Mat2 K)) (i j b : Nat) : K :=
  match d with
  | some v => v.val i j b
  | none => 0

/-- The element of a chunk that may be absent. -/
def at3 (d : Option (Mat3 K)) (i j k b : Nat) : K :=
  match d with
  | some v => v.val i j k b
  | none => 0

/-- What the spline is asked to be for a pair of conditions: the data given by the user, or zero if one of the
closures is homogeneous. -/
def given2 (c1 c2 : Side → Closure) (vals : Mat2 K) (d : Derivs2 K) (b : Nat) : Cond → Cond → K
  | .point k, .point l => vals.val k l b
  | .side s i, .point l => if c1 s = .hermite then at2 (d.d1 s) i l b else 0
  | .point k, .side s i => if c2 s = .hermite then at2 (d.d2 s) k i b else 0
  | .side s i, .side r j => if c1 s = .hermite ∧ c2 r = .hermite then at2 (d.d12 s r) i j b else 0

/-- The same in three dimensions. -/
def given3 (c1 c2 c3 : Side → Closure) (vals : Mat3 K) (d : Derivs3 K) (b : Nat) : Cond → Cond → Cond → K
  | .point k, .point l, .point m => vals.val k l m b
  | .side s i, .point l, .point m => if c1 s = .hermite then at3 (d.d1 s) i l m b else 0
  | .point k, .side s i, .point m => if c2 s = .hermite then at3 (d.d2 s) k i m b else 0
  | .point k, .point l, .side s i => if c3 s = .hermite then at3 (d.d3 s) k l i b else 0
  | .side s i, .side r j, .point m => if c1 s = .hermite ∧ c2 r = .hermite then at3 (d.d12 s r) i j m b else 0
  | .side s i, .point l, .side r j => if c1 s = .hermite ∧ c3 r = .hermite then at3 (d.d13 s r) i l j b else 0
  | .point k, .side s i, .side r j => if c2 s = .hermite ∧ c3 r = .hermite then at3 (d.d23 s r) k i j b else 0
  | .side s i, .side r j, .side q k =>
    if c1 s = .hermite ∧ c2 r = .hermite ∧ c3 q = .hermite then at3 (d.d123 s r q) i j k b else 0

/-- The user gives what the closures need, on the right domains; for a closure along the first dimension that needs
nothing, the chunk is absent or empty. -/
structure Given2 (c1 c2 : Side → Closure) (p1 p2 : Nat) (vals : Mat2 K) (d : Derivs2 K) : Prop where
  d1 : ∀ s, if c1 s = .hermite then ∃ v, d.d1 s = some v ∧ v.f1 = BitVec.ofNat 64 (p1 % 2) ∧ v.n1 = p1 / 2 ∧
    v.f2 = vals.f2 ∧ v.n2 = vals.n2 ∧ v.batch = vals.batch else ∀ v, d.d1 s = some v → v.n1 = 0
  d2 : ∀ s, c2 s = .hermite → ∃ v, d.d2 s = some v ∧ v.n1 = vals.n1 ∧ v.f2 = BitVec.ofNat 64 (p2 % 2) ∧
    v.n2 = p2 / 2 ∧ v.batch = vals.batch
  d12 : ∀ s r, c2 r = .hermite → if c1 s = .hermite then ∃ v, d.d12 s r = some v ∧
    v.f1 = BitVec.ofNat 64 (p1 % 2) ∧ v.n1 = p1 / 2 ∧ v.f2 = BitVec.ofNat 64 (p2 % 2) ∧ v.n2 = p2 / 2 ∧
    v.batch = vals.batch else ∀ v, d.d12 s r = some v → v.n1 = 0

variable [FloorRing K]

variable {per per1 per2 per3 : Bool} {p n p1 n1 p2 n2 p3 n3 : Nat} {t t1 t2 t3 : Nat → K}

/-- The builder has been constructed and is not in one of the cases excluded by `C41_interpolates_partial`. -/
structure Ready (L : Lapack K) (B : Builder K) (per : Bool) (p n : Nat) (t : Nat → K) (N : Nat) (X : Nat → K) :
    Prop where
  is : B.bs.Is per p n t
  built : ∃ σ s coord, σ.Valid ∧ PointsIn t p n s N coord X ∧
    Builder.mk' L σ B.bs B.lower B.upper (seg () s (s + N)) coord = .ok B
  shift : 0 ≤ B.offset ∧ B.offset ≤ p
  cells : per = true → p < n
  clean : B.matrix.Clean
  tiny : ∀ i j, i < (if per then n else n + p) → j < (if per then n else n + p) →
    |collocation (condition t p n (edgeEquations B.lower p) N X ((t (p + n) - t p) / n)) (n + p)
      (if per then n else n + p) B.offset i j| < 1 / 10 ^ 15 →
    collocation (condition t p n (edgeEquations B.lower p) N X ((t (p + n) - t p) / n)) (n + p)
      (if per then n else n + p) B.offset i j = 0
  sym : B.bs.isUniform = true → ∀ i j, i < (if per then n else n + p) → j < (if per then n else n + p) →
    B.matrix.Same (i, j) (j, i) →
    collocation (condition t p n (edgeEquations B.lower p) N X ((t (p + n) - t p) / n)) (n + p)
      (if per then n else n + p) B.offset i j =
    collocation (condition t p n (edgeEquations B.lower p) N X ((t (p + n) - t p) / n)) (n + p)
      (if per then n else n + p) B.offset j i

/-! ## One dimension -/

/-- The data of a problem in one dimension. -/
def pick (c : Side → Closure) (v : Nat → K) (d : Side → Nat → K) : Cond → K
  | .point k => v k
  | .side s i => if c s = .hermite then d s i else 0

theorem Ready.domSize {L : Lapack K} {B : Builder K} {N : Nat} {X : Nat → K} (h : Ready L B per p n t N X) :
    Dom.size B.dom = .ok (BitVec.ofNat 64 N) ∧ N < 2 ^ 31 := by
  obtain ⟨σ, s, coord, hσ, hX, hB⟩ := h.built
  have hxs := hX.small
  obtain ⟨-, -, -, -, eD, -⟩ := builder_inv h.is hxs hB
  exact ⟨by rw [eD, seg_size (by omega), Nat.add_sub_cancel_left], by omega⟩

theorem Ready.apply {L : Lapack K} (hL : L.Exact) {B : Builder K} {N : Nat} {X : Nat → K}
    (h : Ready L B per p n t N X) {σ : Sched} (hσ : σ.Valid) (junk : Nat → Nat → K) (spline vals : Mat K)
    (dmin dmax : Option (U64 × Mat K)) (hs : spline.rows = n + p) (hv : vals.rows = N)
    (hc : vals.cols = spline.cols) (hmin : GivenDerivs B.lower p spline.cols dmin)
    (hmax : GivenDerivs B.upper p spline.cols dmax) :
    ∃ r, B.apply L σ junk spline vals dmin dmax = .ok r ∧ ∀ j, j < spline.cols → ∀ q : Cond,
      q.Among p N B.closure → ∑ J ∈ Finset.range (n + p), r.val J j * q.form t p n X J =
        pick B.closure (fun k => vals.val k j) (fun s i => derivAt (sides dmin dmax s) i j) q := by
  obtain ⟨σ', s, coord, hσ', hX, hB⟩ := h.built
  obtain ⟨r, e, -, -, hr⟩ := C41_interpolates_partial h.is hL hσ' hX hB h.shift h.cells rfl rfl h.clean h.tiny h.sym
    hσ junk spline vals dmin dmax hs hv hc hmin hmax
  refine ⟨r, e, fun j hj q hq => ?_⟩
  have hi := (hr j hj).1
  match q, hq with
  | .point k, hq => exact hi.value k hq
  | .side .lower i, hq =>
    have hq : i < edgeEquations B.lower p := hq
    show splineDeriv t p n (fun J => r.val J j) p (i + p % 2) (t p) =
      if B.lower = .hermite then derivAt dmin i j else 0
    split_ifs with hc
    · rw [hc] at hq; exact hi.atLower hc i hq
    · cases hl : B.lower
      · rw [hl] at hq; exact absurd hq (Nat.not_lt_zero _)
      · exact absurd hl hc
      · rw [hl] at hq; exact hi.atLower0 hl i hq
      · rw [hl] at hq; exact absurd hq (Nat.not_lt_zero _)
  | .side .upper i, hq =>
    have hq : i < edgeEquations B.upper p := hq
    show splineDeriv t p n (fun J => r.val J j) (p + n - 1) (i + p % 2) (t (p + n)) =
      if B.upper = .hermite then derivAt dmax i j else 0
    split_ifs with hc
    · rw [hc] at hq; exact hi.atUpper hc i hq
    · cases hl : B.upper
      · rw [hl] at hq; exact absurd hq (Nat.not_lt_zero _)
      · exact absurd hl hc
      · rw [hl] at hq; exact hi.atUpper0 hl i hq
      · rw [hl] at hq; exact absurd hq (Nat.not_lt_zero _)

/-- The chunk of derivatives that a builder in one dimension needs. -/
def GivenSlab (c : Closure) (p cols : Nat) (batch : List (U64 × Nat)) (d : Option (Slab K)) : Prop :=
  if c = .hermite then ∃ v, d = some v ∧ v.first = BitVec.ofNat 64 (p % 2) ∧ v.mat.rows = p / 2 ∧
    v.mat.cols = cols ∧ v.batch = batch else ∀ v, d = some v → v.mat.rows = 0

theorem GivenSlab.given {c : Closure} {cols : Nat} {batch : List (U64 × Nat)} {d : Option (Slab K)}
    (h : GivenSlab c p cols batch d) : GivenDerivs c p cols (d.map (seen batch)) := by
  unfold GivenSlab at h
  unfold GivenDerivs
  split_ifs at h ⊢ with hc
  · obtain ⟨v, rfl, h1, h2, h3, h4⟩ := h
    exact ⟨v.mat, by simp [seen, h1, h4], h2, h3⟩
  · intro f v e
    obtain ⟨w, rfl, e'⟩ := Option.map_eq_some_iff.1 e
    have := h w rfl
    have e2 := congrArg Prod.snd e'
    rw [← show (seen batch w).2 = v from e2, seen]
    dsimp only
    split_ifs <;> exact this

theorem Ready.slab {L : Lapack K} (hL : L.Exact) {B : Builder K} {N : Nat} {X : Nat → K}
    (h : Ready L B per p n t N X) {σ : Sched} (hσ : σ.Valid) (junk : Nat → Nat → K) (spline vals : Slab K)
    (dmin dmax : Option (Slab K)) (hs : spline.mat.rows = n + p) (hv : vals.mat.rows = N)
    (hc : vals.mat.cols = spline.mat.cols) (hb : vals.batch = spline.batch)
    (hmin : GivenSlab B.lower p spline.mat.cols spline.batch dmin)
    (hmax : GivenSlab B.upper p spline.mat.cols spline.batch dmax) :
    ∃ r, B.applySlab L σ junk spline vals dmin dmax = .ok r ∧ ∀ j, j < spline.mat.cols → ∀ q : Cond,
      q.Among p N B.closure → ∑ J ∈ Finset.range (n + p), r.val J j * q.form t p n X J =
        pick B.closure (fun k => vals.mat.val k j)
          (fun s i => match sides dmin dmax s with | some v => v.mat.val i j | none => 0) q := by
  obtain ⟨r, e, hr⟩ := h.apply hL hσ junk spline.mat vals.mat _ _ hs hv hc hmin.given hmax.given
  refine ⟨r, ?_, fun j hj q hq => ?_⟩
  · rw [applySlab, hb, sameBatch]
    simpa using e
  · rw [hr j hj q hq]
    match q with
    | .point k => rfl
    | .side s i =>
      simp only [pick]
      split_ifs with hh
      · match s with
        | .lower =>
          match dmin with
          | some v => simp only [sides, Option.map_some, derivAt, seen]; split_ifs <;> rfl
          | none => rfl
        | .upper =>
          match dmax with
          | some v => simp only [sides, Option.map_some, derivAt, seen]; split_ifs <;> rfl
          | none => rfl
      · rfl

/-! ## Two dimensions -/

/-- The chunk of derivatives that the builder along the first dimension needs. -/
def GivenAlong1 (c : Closure) (p : Nat) (spline : Mat2 K) (d : Option (Mat2 K)) : Prop :=
  if c = .hermite then ∃ v, d = some v ∧ v.f1 = BitVec.ofNat 64 (p % 2) ∧ v.n1 = p / 2 ∧ v.f2 = spline.f2 ∧
    v.n2 = spline.n2 ∧ v.batch = spline.batch else ∀ v, d = some v → v.n1 = 0

/-- The chunk of derivatives that the builder along the second dimension needs. -/
def GivenAlong2 (c : Closure) (p : Nat) (spline : Mat2 K) (d : Option (Mat2 K)) : Prop :=
  if c = .hermite then ∃ v, d = some v ∧ v.f2 = BitVec.ofNat 64 (p % 2) ∧ v.n2 = p / 2 ∧ v.f1 = spline.f1 ∧
    v.n1 = spline.n1 ∧ v.batch = spline.batch else ∀ v, d = some v → v.n2 = 0

theorem GivenAlong1.slab {c : Closure} {spline : Mat2 K} {d : Option (Mat2 K)} (h : GivenAlong1 c p spline d) :
    GivenSlab c p spline.along1.mat.cols spline.along1.batch (d.map Mat2.along1) := by
  unfold GivenAlong1 at h
  unfold GivenSlab
  split_ifs at h ⊢ with hc
  · obtain ⟨v, rfl, h1, h2, h3, h4, h5⟩ := h
    exact ⟨_, rfl, h1, h2, by simp [Mat2.along1, h3, h4, h5], by simp [Mat2.along1, h3, h4, h5]⟩
  · intro v e
    obtain ⟨w, rfl, rfl⟩ := Option.map_eq_some_iff.1 e
    exact h w rfl

theorem GivenAlong2.slab {c : Closure} {spline : Mat2 K} {d : Option (Mat2 K)} (h : GivenAlong2 c p spline d) :
    GivenSlab c p spline.along2.mat.cols spline.along2.batch (d.map Mat2.along2) := by
  unfold GivenAlong2 at h
  unfold GivenSlab
  split_ifs at h ⊢ with hc
  · obtain ⟨v, rfl, h1, h2, h3, h4, h5⟩ := h
    exact ⟨_, rfl, h1, h2, by simp [Mat2.along2, h3, h4, h5], by simp [Mat2.along2, h3, h4, h5]⟩
  · intro v e
    obtain ⟨w, rfl, rfl⟩ := Option.map_eq_some_iff.1 e
    exact h w rfl

theorem col_lt {m v j b : Nat} (hj : j < m) (hb : b < v) : j + m * b < m * v :=
  calc j + m * b < m + m * b := by omega
    _ = m * (b + 1) := by ring
    _ ≤ m * v := Nat.mul_le_mul_left _ hb

theorem col_mod {m j : Nat} (b : Nat) (hj : j < m) : (j + m * b) % m = j := by
  rw [Nat.add_mul_mod_self_left, Nat.mod_eq_of_lt hj]

theorem col_div {m j : Nat} (b : Nat) (hj : j < m) : (j + m * b) / m = b := by
  rw [Nat.add_mul_div_left _ _ (by omega), Nat.div_eq_of_lt hj, Nat.zero_add]

theorem Ready.apply1 {L : Lapack K} (hL : L.Exact) {B : Builder K} {N : Nat} {X : Nat → K}
    (h : Ready L B per p n t N X) {σ : Sched} (hσ : σ.Valid) (junk : Nat → Nat → K) (spline vals : Mat2 K)
    (dmin dmax : Option (Mat2 K)) (hs : spline.n1 = n + p) (hv : vals.n1 = N) (hf : vals.f2 = spline.f2)
    (hn : vals.n2 = spline.n2) (hb : vals.batch = spline.batch) (hmin : GivenAlong1 B.lower p spline dmin)
    (hmax : GivenAlong1 B.upper p spline dmax) :
    ∃ r, B.apply1 L σ junk spline vals dmin dmax = .ok { spline with val := r } ∧
      ∀ j b, j < spline.n2 → b < vol spline.batch → ∀ q : Cond, q.Among p N B.closure →
        ∑ J ∈ Finset.range (n + p), r J j b * q.form t p n X J =
          pick B.closure (fun k => vals.val k j b) (fun s i => at2 (sides dmin dmax s) i j b) q := by
  obtain ⟨m, e, hm⟩ := h.slab hL hσ junk spline.along1 vals.along1 (dmin.map Mat2.along1) (dmax.map Mat2.along1) hs hv
    (by simp [Mat2.along1, hf, hn, hb]) (by simp [Mat2.along1, hf, hn, hb]) hmin.slab hmax.slab
  refine ⟨fun i j b => m.val i (j + spline.n2 * b), ?_, fun j b hj hb' q hq => ?_⟩
  · rw [Builder.apply1, e]; rfl
  · rw [hm (j + spline.n2 * b) (by simpa [Mat2.along1, vol] using col_lt hj hb') q hq]
    match q, hq with
    | .point k, _ => simp only [pick, Mat2.along1, hn, col_mod b hj, col_div b hj]
    | .side s i, _ =>
      simp only [pick]
      split_ifs with hh
      · match s with
        | .lower =>
          obtain ⟨v, rfl, -, -, -, h4, -⟩ : ∃ v, dmin = some v ∧ _ := by
            unfold GivenAlong1 at hmin; rw [if_pos (show B.lower = .hermite from hh)] at hmin; exact hmin
          simp only [sides, Option.map_some, at2, Mat2.along1, h4, col_mod b hj, col_div b hj]
        | .upper =>
          obtain ⟨v, rfl, -, -, -, h4, -⟩ : ∃ v, dmax = some v ∧ _ := by
            unfold GivenAlong1 at hmax; rw [if_pos (show B.upper = .hermite from hh)] at hmax; exact hmax
          simp only [sides, Option.map_some, at2, Mat2.along1, h4, col_mod b hj, col_div b hj]
      · rfl

theorem Ready.apply2 {L : Lapack K} (hL : L.Exact) {B : Builder K} {N : Nat} {X : Nat → K}
    (h : Ready L B per p n t N X) {σ : Sched} (hσ : σ.Valid) (junk : Nat → Nat → K) (spline vals : Mat2 K)
    (dmin dmax : Option (Mat2 K)) (hs : spline.n2 = n + p) (hv : vals.n2 = N) (hf : vals.f1 = spline.f1)
    (hn : vals.n1 = spline.n1) (hb : vals.batch = spline.batch) (hmin : GivenAlong2 B.lower p spline dmin)
    (hmax : GivenAlong2 B.upper p spline dmax) :
    ∃ r, B.apply2 L σ junk spline vals dmin dmax = .ok { spline with val := r } ∧
      ∀ j b, j < spline.n1 → b < vol spline.batch → ∀ q : Cond, q.Among p N B.closure →
        ∑ J ∈ Finset.range (n + p), r j J b * q.form t p n X J =
          pick B.closure (fun k => vals.val j k b) (fun s i => at2 (sides dmin dmax s) j i b) q := by
  obtain ⟨m, e, hm⟩ := h.slab hL hσ junk spline.along2 vals.along2 (dmin.map Mat2.along2) (dmax.map Mat2.along2) hs hv
    (by simp [Mat2.along2, hf, hn, hb]) (by simp [Mat2.along2, hf, hn, hb]) hmin.slab hmax.slab
  refine ⟨fun j i b => m.val i (j + spline.n1 * b), ?_, fun j b hj hb' q hq => ?_⟩
  · rw [Builder.apply2, e]; rfl
  · rw [hm (j + spline.n1 * b) (by simpa [Mat2.along2, vol] using col_lt hj hb') q hq]
    match q, hq with
    | .point k, _ => simp only [pick, Mat2.along2, hn, col_mod b hj, col_div b hj]
    | .side s i, _ =>
      simp only [pick]
      split_ifs with hh
      · match s with
        | .lower =>
          obtain ⟨v, rfl, -, -, -, h4, -⟩ : ∃ v, dmin = some v ∧ _ := by
            unfold GivenAlong2 at hmin; rw [if_pos (show B.lower = .hermite from hh)] at hmin; exact hmin
          simp only [sides, Option.map_some, at2, Mat2.along2, h4, col_mod b hj, col_div b hj]
        | .upper =>
          obtain ⟨v, rfl, -, -, -, h4, -⟩ : ∃ v, dmax = some v ∧ _ := by
            unfold GivenAlong2 at hmax; rw [if_pos (show B.upper = .hermite from hh)] at hmax; exact hmax
          simp only [sides, Option.map_some, at2, Mat2.along2, h4, col_mod b hj, col_div b hj]
      · rfl

/-- The derivatives along the second dimension are approximated along the first one. -/
theorem Ready.derivs2 {L : Lapack K} (hL : L.Exact) {B1 B2 : Builder K} {N1 N2 : Nat} {X1 X2 : Nat → K}
    (h1 : Ready L B1 per1 p1 n1 t1 N1 X1) (h2 : Ready L B2 per2 p2 n2 t2 N2 X2) {σ : Sched} (hσ : σ.Valid)
    (junk : Nat → Nat → K) (mem : Nat → Nat → Nat → K) (vals : Mat2 K) (d : Derivs2 K) (hv : vals.n1 = N1)
    (hd : Given2 B1.closure B2.closure p1 p2 vals d) (s : Side) :
    ∃ r, Builder.derivs2 L σ B1 B2 junk mem (n1 + p1) vals d s = .ok r ∧
      (∀ spline : Mat2 K, spline.f1 = 0 → spline.n1 = n1 + p1 → spline.batch = vals.batch →
        GivenAlong2 (B2.closure s) p2 spline r) ∧
      (B2.closure s = .hermite → ∀ i b, i < p2 / 2 → b < vol vals.batch → ∀ q : Cond, q.Among p1 N1 B1.closure →
        ∑ J ∈ Finset.range (n1 + p1), at2 r J i b * q.form t1 p1 n1 X1 J =
          pick B1.closure (fun k => at2 (d.d2 s) k i b) (fun a j => at2 (d.d12 a s) j i b) q) := by
  unfold Builder.derivs2
  dsimp only
  rw [h2.is.degree]
  by_cases hc : B2.closure s = .hermite
  · rw [if_pos hc]
    obtain ⟨v, ev, e1, e2, e3, e4⟩ := hd.d2 s hc
    have hmix : ∀ a, GivenAlong1 (B1.closure a) p1
        ⟨0, BitVec.ofNat 64 (p2 % 2), n1 + p1, p2 / 2, vals.batch, mem⟩ (d.d12 a s) := fun a => hd.d12 a s hc
    obtain ⟨r, er, hr⟩ := h1.apply1 hL hσ junk ⟨0, BitVec.ofNat 64 (p2 % 2), n1 + p1, p2 / 2, vals.batch, mem⟩ v
      (d.d12 .lower s) (d.d12 .upper s) rfl (e1.trans hv) e2 e3 e4 (hmix .lower) (hmix .upper)
    rw [ev]
    dsimp only
    rw [er, Res.ok_bind]
    refine ⟨_, rfl, fun spline f1 f2 f3 => ?_, fun _ i b hi hb q hq => ?_⟩
    · rw [GivenAlong2, if_pos hc]
      exact ⟨_, rfl, rfl, rfl, f1.symm, f2.symm, f3.symm⟩
    · have := hr i b hi hb q hq
      simp only [at2] at this ⊢
      rw [this]
      match q with
      | .point k => rfl
      | .side .lower j => rfl
      | .side .upper j => rfl
  · rw [if_neg hc]
    refine ⟨none, rfl, fun spline f1 f2 f3 => ?_, fun h => absurd h hc⟩
    rw [GivenAlong2, if_neg hc]
    exact fun v e => by cases e

/-- The builder in two dimensions computes the coefficients of a spline that meets all the pairs of conditions: the
given values, derivatives and mixed derivatives, for any closures, any data and any batch domain.

Missing: the restrictions on each of the two builders of `C41_interpolates_partial`, gathered in `Ready`. -/
theorem C46_2d_partial {L : Lapack K} (hL : L.Exact) {B1 B2 : Builder K} {N1 N2 : Nat} {X1 X2 : Nat → K}
    (h1 : Ready L B1 per1 p1 n1 t1 N1 X1) (h2 : Ready L B2 per2 p2 n2 t2 N2 X2) {σ : Sched} (hσ : σ.Valid)
    (μ : Memory2 K) (spline vals : Mat2 K) (d : Derivs2 K) (hv1 : vals.n1 = N1) (hv2 : vals.n2 = N2)
    (hb : spline.batch = vals.batch) (hf1 : spline.f1 = 0) (hs1 : spline.n1 = n1 + p1)
    (hs2 : spline.n2 = n2 + p2) (hd : Given2 B1.closure B2.closure p1 p2 vals d) :
    ∃ c, build2 L σ B1 B2 μ spline vals d = .ok { spline with val := c } ∧ ∀ b, b < vol vals.batch → ∀ q1 q2 : Cond,
      q1.Among p1 N1 B1.closure → q2.Among p2 N2 B2.closure →
      ∑ I ∈ Finset.range (n1 + p1), ∑ J ∈ Finset.range (n2 + p2),
        c I J b * (q1.form t1 p1 n1 X1 I * q2.form t2 p2 n2 X2 J) =
        given2 B1.closure B2.closure vals d b q1 q2 := by
  obtain ⟨z1, m1⟩ := h1.domSize
  obtain ⟨z2, m2⟩ := h2.domSize
  have hsm := h1.is.small
  have hfull : Dom.size (seg () 0 (n1 + p1)) = .ok (BitVec.ofNat 64 (n1 + p1)) := by
    rw [seg_size (by omega), Nat.sub_zero]
  have hnat : ∀ k, k < 2 ^ 31 → (BitVec.ofNat 64 k).toNat = k := fun k hk => by
    rw [BitVec.toNat_ofNat, Nat.mod_eq_of_lt (by omega)]
  rw [build2, z1, Res.ok_bind, z2, Res.ok_bind, hnat _ m1, hnat _ m2, hv1, hv2,
    show sameBatch vals.batch spline.batch = true by rw [hb, sameBatch]; simp]
  simp only [and_self, decide_true, Res.guardAbort_true, Res.ok_bind]
  by_cases hz : vol vals.batch = 0
  · rw [if_pos hz]
    exact ⟨spline.val, rfl, fun b hb => absurd hb (by omega)⟩
  rw [if_neg hz, h1.is.full, Res.ok_bind, hfull, Res.ok_bind, hnat _ (by omega)]
  obtain ⟨dmin, emin, gmin, hmin⟩ := h1.derivs2 hL h2 hσ (μ.tmp 0) (μ.deriv .lower) vals d hv1 hd .lower
  obtain ⟨s1, es1, hs1'⟩ := h1.apply1 hL hσ (μ.tmp 1) ⟨0, vals.f2, n1 + p1, N2, vals.batch, μ.spline1⟩ vals
    (d.d1 .lower) (d.d1 .upper) rfl hv1 rfl hv2 rfl (by have := hd.d1 .lower; rw [hv2] at this; exact this)
    (by have := hd.d1 .upper; rw [hv2] at this; exact this)
  obtain ⟨dmax, emax, gmax, hmax⟩ := h1.derivs2 hL h2 hσ (μ.tmp 2) (μ.deriv .upper) vals d hv1 hd .upper
  obtain ⟨c, ec, hc⟩ := h2.apply2 hL hσ (μ.tmp 3) spline ⟨0, vals.f2, n1 + p1, N2, vals.batch, s1⟩ dmin dmax hs2 rfl
    hf1.symm hs1.symm hb.symm (gmin spline hf1 hs1 hb) (gmax spline hf1 hs1 hb)
  rw [emin, Res.ok_bind, es1, Res.ok_bind, emax, Res.ok_bind, ec]
  refine ⟨c, rfl, fun b hb' q1 q2 hq1 hq2 => ?_⟩
  have key : ∀ I, I ∈ Finset.range (n1 + p1) → ∑ J ∈ Finset.range (n2 + p2),
      c I J b * (q1.form t1 p1 n1 X1 I * q2.form t2 p2 n2 X2 J) =
      pick B2.closure (fun k => s1 I k b) (fun s i => at2 (sides dmin dmax s) I i b) q2 * q1.form t1 p1 n1 X1 I := by
    intro I hI
    rw [← hc I b (by rw [hs1]; exact Finset.mem_range.1 hI) (by rw [hb]; exact hb') q2 hq2, Finset.sum_mul]
    exact Finset.sum_congr rfl fun J _ => by ring
  rw [Finset.sum_congr rfl key]
  have hherm : ∀ {c : Closure} {p i : Nat}, c = .hermite → i < edgeEquations c p → i < p / 2 := by
    rintro _ p i rfl h; exact h
  match q2, hq2 with
  | .point l, hq2 =>
    show ∑ I ∈ Finset.range (n1 + p1), s1 I l b * q1.form t1 p1 n1 X1 I = _
    rw [hs1' l b hq2 hb' q1 hq1]
    match q1 with
    | .point k => rfl
    | .side .lower i => rfl
    | .side .upper i => rfl
  | .side s i, hq2 =>
    simp only [pick]
    by_cases hh : B2.closure s = .hermite
    · simp only [if_pos hh]
      have hi : i < p2 / 2 := hherm hh hq2
      have : ∑ I ∈ Finset.range (n1 + p1), at2 (sides dmin dmax s) I i b * q1.form t1 p1 n1 X1 I =
          pick B1.closure (fun k => at2 (d.d2 s) k i b) (fun a j => at2 (d.d12 a s) j i b) q1 := by
        match s with
        | .lower => exact hmin hh i b hi hb' q1 hq1
        | .upper => exact hmax hh i b hi hb' q1 hq1
      rw [this]
      match q1 with
      | .point k => simp [pick, given2, hh]
      | .side a j => simp [pick, given2, hh]
    · simp only [if_neg hh, zero_mul, Finset.sum_const_zero]
      match q1 with
      | .point k => simp [given2, hh]
      | .side a j => simp [given2, hh]

/-! ## Three dimensions -/

/-- The indices of the derivatives of a spline of degree `p`: the first one and their number. -/
def derivDim (p : Nat) : U64 × Nat := (BitVec.ofNat 64 (p % 2), p / 2)

/-- The domain of a chunk, but for the first index in the first dimension. -/
def On3 (v : Mat3 K) (m : Nat) (D2 D3 : U64 × Nat) (batch : List (U64 × Nat)) : Prop :=
  v.n1 = m ∧ (v.f2, v.n2) = D2 ∧ (v.f3, v.n3) = D3 ∧ v.batch = batch

/-- The derivatives along the first dimension that the closure `c` needs; a closure that needs nothing accepts an
empty chunk. -/
def GivenD (c : Closure) (p : Nat) (D2 D3 : U64 × Nat) (batch : List (U64 × Nat)) (d : Option (Mat3 K)) : Prop :=
  if c = .hermite then ∃ v, d = some v ∧ v.f1 = BitVec.ofNat 64 (p % 2) ∧ On3 v (p / 2) D2 D3 batch
  else ∀ v, d = some v → v.n1 = 0

/-- The user gives what the builder in three dimensions needs.  This is more than what the closures need: the mixed
derivatives along the second and the third dimension are needed as soon as one of the two closures is `HERMITE`
(`C46_mixed_not_needed`), and there is no way to satisfy the builder if the closure along the third dimension is the
only one to be `HERMITE` (`C46_mixed_rejected`, excluded by `both`). -/
structure Given3 (c1 c2 c3 : Side → Closure) (p1 p2 p3 : Nat) (vals : Mat3 K) (d : Derivs3 K) : Prop where
  d1 : ∀ s, GivenD (c1 s) p1 (vals.f2, vals.n2) (vals.f3, vals.n3) vals.batch (d.d1 s)
  d2 : ∀ s, c2 s = .hermite →
    (∃ v, d.d2 s = some v ∧ On3 v vals.n1 (derivDim p2) (vals.f3, vals.n3) vals.batch) ∧
    ∀ a, GivenD (c1 a) p1 (derivDim p2) (vals.f3, vals.n3) vals.batch (d.d12 a s)
  d3 : ∀ s, c3 s = .hermite →
    (∃ v, d.d3 s = some v ∧ On3 v vals.n1 (vals.f2, vals.n2) (derivDim p3) vals.batch) ∧
    ∀ a, GivenD (c1 a) p1 (vals.f2, vals.n2) (derivDim p3) vals.batch (d.d13 a s)
  d23 : ∀ s r, c2 s = .hermite ∨ c3 r = .hermite →
    (∃ v, d.d23 s r = some v ∧ On3 v vals.n1 (derivDim p2) (derivDim p3) vals.batch) ∧
    ∀ a, GivenD (c1 a) p1 (derivDim p2) (derivDim p3) vals.batch (d.d123 a s r)
  both : ∀ s r, c3 r = .hermite → c2 s = .hermite

theorem GivenD.slab {c : Closure} {spline : Mat3 K} {d : Option (Mat3 K)}
    (h : GivenD c p (spline.f2, spline.n2) (spline.f3, spline.n3) spline.batch d) :
    GivenSlab c p spline.along1.mat.cols spline.along1.batch (d.map Mat3.along1) := by
  unfold GivenD at h
  unfold GivenSlab
  split_ifs at h ⊢ with hc
  · obtain ⟨v, rfl, h1, h2, h3, h4, h5⟩ := h
    exact ⟨_, rfl, h1, h2, by simp [Mat3.along1, h3, h4, h5], by simp [Mat3.along1, h3, h4, h5]⟩
  · intro v e
    obtain ⟨w, rfl, rfl⟩ := Option.map_eq_some_iff.1 e
    exact h w rfl

theorem Ready.apply1of3 {L : Lapack K} (hL : L.Exact) {B : Builder K} {N : Nat} {X : Nat → K}
    (h : Ready L B per p n t N X) {σ : Sched} (hσ : σ.Valid) (junk : Nat → Nat → K) (spline vals : Mat3 K)
    (d : Side → Option (Mat3 K)) (hs : spline.n1 = n + p)
    (hv : On3 vals N (spline.f2, spline.n2) (spline.f3, spline.n3) spline.batch)
    (hd : ∀ a, GivenD (B.closure a) p (spline.f2, spline.n2) (spline.f3, spline.n3) spline.batch (d a)) :
    ∃ r, B.apply1of3 L σ junk spline vals (d .lower) (d .upper) = .ok { spline with val := r } ∧
      ∀ j k b, j < spline.n2 → k < spline.n3 → b < vol spline.batch → ∀ q : Cond, q.Among p N B.closure →
        ∑ J ∈ Finset.range (n + p), r J j k b * q.form t p n X J =
          pick B.closure (fun i => vals.val i j k b) (fun s i => at3 (d s) i j k b) q := by
  obtain ⟨hv1, hv2, hv3, hv4⟩ := hv
  obtain ⟨m, e, hm⟩ := h.slab hL hσ junk spline.along1 vals.along1 ((d .lower).map Mat3.along1)
    ((d .upper).map Mat3.along1) hs hv1 (by simp [Mat3.along1, hv2, hv3, hv4]) (by simp [Mat3.along1, hv2, hv3, hv4])
    (hd .lower).slab (hd .upper).slab
  refine ⟨fun i j k b => m.val i (j + spline.n2 * (k + spline.n3 * b)), ?_, fun j k b hj hk hb q hq => ?_⟩
  · rw [Builder.apply1of3, e]; rfl
  · rw [hm (j + spline.n2 * (k + spline.n3 * b)) (by simpa [Mat3.along1, vol] using col_lt hj (col_lt hk hb)) q hq]
    match q, hq with
    | .point i, _ =>
      simp only [pick, Mat3.along1, (Prod.mk.inj hv2).2, (Prod.mk.inj hv3).2, col_mod _ hj, col_div _ hj, col_mod _ hk,
        col_div _ hk]
    | .side s i, _ =>
      simp only [pick]
      split_ifs with hh
      · obtain ⟨v, ev, -, -, h4, h5, -⟩ : ∃ v, d s = some v ∧ _ := by
          have := hd s; unfold GivenD at this; rw [if_pos hh] at this; exact this
        match s with
        | .lower =>
          simp only [sides, ev, Option.map_some, at3, Mat3.along1, (Prod.mk.inj h4).2, (Prod.mk.inj h5).2, col_mod _ hj,
            col_div _ hj, col_mod _ hk, col_div _ hk]
        | .upper =>
          simp only [sides, ev, Option.map_some, at3, Mat3.along1, (Prod.mk.inj h4).2, (Prod.mk.inj h5).2, col_mod _ hj,
            col_div _ hj, col_mod _ hk, col_div _ hk]
      · rfl

/-- The common shape of the functions that approximate derivatives along the first dimension. -/
def approx (L : Lapack K) (σ : Sched) (B : Builder K) (junk : Nat → Nat → K) (spline : Mat3 K) (need : Prop)
    [Decidable need] (o : Option (Mat3 K)) (dd : Side → Option (Mat3 K)) : Res (Option (Mat3 K)) :=
  if need then
    match o with
    | none => .ub
    | some v => do
      let r ← B.apply1of3 L σ junk spline v (dd .lower) (dd .upper)
      .ok (some r)
  else .ok none

theorem Ready.approx {L : Lapack K} (hL : L.Exact) {B : Builder K} {N : Nat} {X : Nat → K}
    (h : Ready L B per p n t N X) {σ : Sched} (hσ : σ.Valid) (junk : Nat → Nat → K) (spline : Mat3 K) (need : Prop)
    [Decidable need] (o : Option (Mat3 K)) (dd : Side → Option (Mat3 K)) (hs : spline.n1 = n + p)
    (hd : need → (∃ v, o = some v ∧ On3 v N (spline.f2, spline.n2) (spline.f3, spline.n3) spline.batch) ∧
      ∀ a, GivenD (B.closure a) p (spline.f2, spline.n2) (spline.f3, spline.n3) spline.batch (dd a)) :
    ∃ r, Props.approx L σ B junk spline need o dd = .ok r ∧ (¬need → r = none) ∧
      (need → ∃ w, r = some { spline with val := w } ∧
        ∀ j k b, j < spline.n2 → k < spline.n3 → b < vol spline.batch → ∀ q : Cond, q.Among p N B.closure →
          ∑ J ∈ Finset.range (n + p), w J j k b * q.form t p n X J =
            pick B.closure (fun i => at3 o i j k b) (fun s i => at3 (dd s) i j k b) q) := by
  unfold Props.approx
  by_cases hn : need
  · obtain ⟨⟨v, rfl, hv⟩, hdd⟩ := hd hn
    obtain ⟨r, er, hr⟩ := h.apply1of3 hL hσ junk spline v dd hs hv hdd
    rw [if_pos hn]
    dsimp only
    rw [er, Res.ok_bind]
    exact ⟨_, rfl, fun h => absurd hn h, fun _ => ⟨r, rfl, hr⟩⟩
  · rw [if_neg hn]
    exact ⟨none, rfl, fun _ => rfl, fun h => absurd h hn⟩

/-- The builder in three dimensions computes the coefficients of a spline that meets all the triples of conditions.

Missing: the restrictions on each of the builders of `C41_interpolates_partial`, gathered in `Ready`; the mixed
derivatives that the code asks for without need, see `Given3`. -/
theorem C46_3d_partial {L : Lapack K} (hL : L.Exact) {B1 B2 B3 : Builder K} {N1 N2 N3 : Nat} {X1 X2 X3 : Nat → K}
    (h1 : Ready L B1 per1 p1 n1 t1 N1 X1) (h2 : Ready L B2 per2 p2 n2 t2 N2 X2)
    (h3 : Ready L B3 per3 p3 n3 t3 N3 X3) {σ : Sched} (hσ : σ.Valid)
    (μ : Memory3 K) (spline vals : Mat3 K) (d : Derivs3 K) (hv1 : vals.n1 = N1) (hv2 : vals.n2 = N2)
    (hv3 : vals.n3 = N3) (hb : spline.batch = vals.batch) (hf1 : spline.f1 = 0) (hf2 : spline.f2 = 0)
    (hs1 : spline.n1 = n1 + p1) (hs2 : spline.n2 = n2 + p2) (hs3 : spline.n3 = n3 + p3)
    (hd : Given3 B1.closure B2.closure B3.closure p1 p2 p3 vals d) :
    ∃ c, build3 L σ B1 B2 B3 μ spline vals d = .ok { spline with val := c } ∧
      ∀ b, b < vol vals.batch → ∀ q1 q2 q3 : Cond, q1.Among p1 N1 B1.closure → q2.Among p2 N2 B2.closure →
      q3.Among p3 N3 B3.closure →
      ∑ I ∈ Finset.range (n1 + p1), ∑ J ∈ Finset.range (n2 + p2), ∑ k ∈ Finset.range (n3 + p3),
        c I J k b * (q1.form t1 p1 n1 X1 I * (q2.form t2 p2 n2 X2 J * q3.form t3 p3 n3 X3 k)) =
        given3 B1.closure B2.closure B3.closure vals d b q1 q2 q3 := by
  obtain ⟨z1, m1⟩ := h1.domSize
  obtain ⟨z2, m2⟩ := h2.domSize
  obtain ⟨z3, m3⟩ := h3.domSize
  have hsm := h1.is.small
  have hfull : Dom.size (seg () 0 (n1 + p1)) = .ok (BitVec.ofNat 64 (n1 + p1)) := by
    rw [seg_size (by omega), Nat.sub_zero]
  have hnat : ∀ k, k < 2 ^ 31 → (BitVec.ofNat 64 k).toNat = k := fun k hk => by
    rw [BitVec.toNat_ofNat, Nat.mod_eq_of_lt (by omega)]
  rw [build3, z1, Res.ok_bind, z2, Res.ok_bind, z3, Res.ok_bind, hnat _ m1, hnat _ m2, hnat _ m3, hv1, hv2, hv3,
    show sameBatch vals.batch spline.batch = true by rw [hb, sameBatch]; simp]
  simp only [and_self, decide_true, Res.guardAbort_true, Res.ok_bind]
  by_cases hz : vol vals.batch = 0
  · rw [if_pos hz]
    exact ⟨spline.val, rfl, fun b hb => absurd hb (by omega)⟩
  rw [if_neg hz, h1.is.full, Res.ok_bind, hfull, Res.ok_bind, hnat _ (by omega)]
  have g2 : ∀ s i, ∃ r, derivs2of3 L σ B1 B2 (μ.tmp i) (μ.deriv2 s) (n1 + p1) vals d s = .ok r ∧
      (¬B2.closure s = .hermite → r = none) ∧ (B2.closure s = .hermite → ∃ w,
        r = some ⟨0, BitVec.ofNat 64 (p2 % 2), vals.f3, n1 + p1, p2 / 2, vals.n3, vals.batch, w⟩ ∧
        ∀ j k b, j < p2 / 2 → k < vals.n3 → b < vol vals.batch → ∀ q : Cond, q.Among p1 N1 B1.closure →
          ∑ J ∈ Finset.range (n1 + p1), w J j k b * q.form t1 p1 n1 X1 J =
            pick B1.closure (fun i => at3 (d.d2 s) i j k b) (fun a i => at3 (d.d12 a s) i j k b) q) := by
    intro s i
    have := h1.approx hL hσ (μ.tmp i)
      ⟨0, BitVec.ofNat 64 (p2 % 2), vals.f3, n1 + p1, p2 / 2, vals.n3, vals.batch, μ.deriv2 s⟩
      (B2.closure s = .hermite) (d.d2 s) (fun a => d.d12 a s) rfl (fun h => by rw [← hv1]; exact hd.d2 s h)
    rw [derivs2of3, h2.is.degree]
    exact this
  have g3 : ∀ s i, ∃ r, derivs3of3 L σ B1 B3 (μ.tmp i) (μ.deriv3 s) (n1 + p1) vals d s = .ok r ∧
      (¬B3.closure s = .hermite → r = none) ∧ (B3.closure s = .hermite → ∃ w,
        r = some ⟨0, vals.f2, BitVec.ofNat 64 (p3 % 2), n1 + p1, vals.n2, p3 / 2, vals.batch, w⟩ ∧
        ∀ j k b, j < vals.n2 → k < p3 / 2 → b < vol vals.batch → ∀ q : Cond, q.Among p1 N1 B1.closure →
          ∑ J ∈ Finset.range (n1 + p1), w J j k b * q.form t1 p1 n1 X1 J =
            pick B1.closure (fun i => at3 (d.d3 s) i j k b) (fun a i => at3 (d.d13 a s) i j k b) q) := by
    intro s i
    have := h1.approx hL hσ (μ.tmp i)
      ⟨0, vals.f2, BitVec.ofNat 64 (p3 % 2), n1 + p1, vals.n2, p3 / 2, vals.batch, μ.deriv3 s⟩
      (B3.closure s = .hermite) (d.d3 s) (fun a => d.d13 a s) rfl (fun h => by rw [← hv1]; exact hd.d3 s h)
    rw [derivs3of3, h3.is.degree]
    exact this
  have g23 : ∀ s r' i, ∃ r, derivs23of3 L σ B1 B2 B3 (μ.tmp i) (μ.deriv23 s r') (n1 + p1) vals d s r' = .ok r ∧
      (¬(B2.closure s = .hermite ∨ B3.closure r' = .hermite) → r = none) ∧
      (B2.closure s = .hermite ∨ B3.closure r' = .hermite → ∃ w,
        r = some ⟨0, BitVec.ofNat 64 (p2 % 2), BitVec.ofNat 64 (p3 % 2), n1 + p1, p2 / 2, p3 / 2, vals.batch, w⟩ ∧
        ∀ j k b, j < p2 / 2 → k < p3 / 2 → b < vol vals.batch → ∀ q : Cond, q.Among p1 N1 B1.closure →
          ∑ J ∈ Finset.range (n1 + p1), w J j k b * q.form t1 p1 n1 X1 J =
            pick B1.closure (fun i => at3 (d.d23 s r') i j k b) (fun a i => at3 (d.d123 a s r') i j k b) q) := by
    intro s r' i
    have := h1.approx hL hσ (μ.tmp i)
      ⟨0, BitVec.ofNat 64 (p2 % 2), BitVec.ofNat 64 (p3 % 2), n1 + p1, p2 / 2, p3 / 2, vals.batch, μ.deriv23 s r'⟩
      (B2.closure s = .hermite ∨ B3.closure r' = .hermite) (d.d23 s r') (fun a => d.d123 a s r') rfl
      (fun h => by rw [← hv1]; exact hd.d23 s r' h)
    rw [derivs23of3, h2.is.degree, h3.is.degree]
    exact this
  obtain ⟨a1, e1, a1n, a1s⟩ := g2 .lower 0
  obtain ⟨a2, e2, a2n, a2s⟩ := g2 .upper 1
  obtain ⟨b1, e3, b1n, b1s⟩ := g3 .lower 2
  obtain ⟨b2, e4, b2n, b2s⟩ := g3 .upper 3
  obtain ⟨c11, e5, c11n, c11s⟩ := g23 .lower .lower 4
  obtain ⟨c12, e6, c12n, c12s⟩ := g23 .lower .upper 5
  obtain ⟨c21, e7, c21n, c21s⟩ := g23 .upper .lower 6
  obtain ⟨c22, e8, c22n, c22s⟩ := g23 .upper .upper 7
  obtain ⟨s1, es1, hs1'⟩ := h1.apply1of3 hL hσ (μ.tmp 8)
    ⟨0, vals.f2, vals.f3, n1 + p1, vals.n2, vals.n3, vals.batch, μ.spline1⟩ vals d.d1 rfl ⟨hv1, rfl, rfl, rfl⟩ hd.d1
  rw [hv2, hv3] at es1 hs1'
  dsimp only at es1 hs1'
  -- the eight chunks as functions of the ends
  have A : ∀ s, (¬B2.closure s = .hermite → sides a1 a2 s = none) ∧ (B2.closure s = .hermite → ∃ w,
        sides a1 a2 s = some ⟨0, BitVec.ofNat 64 (p2 % 2), vals.f3, n1 + p1, p2 / 2, vals.n3, vals.batch, w⟩ ∧
        ∀ j k b, j < p2 / 2 → k < vals.n3 → b < vol vals.batch → ∀ q : Cond, q.Among p1 N1 B1.closure →
          ∑ J ∈ Finset.range (n1 + p1), w J j k b * q.form t1 p1 n1 X1 J =
            pick B1.closure (fun i => at3 (d.d2 s) i j k b) (fun a i => at3 (d.d12 a s) i j k b) q) := by
    intro s
    match s with
    | .lower => exact ⟨a1n, a1s⟩
    | .upper => exact ⟨a2n, a2s⟩
  have Bd : ∀ s, (¬B3.closure s = .hermite → sides b1 b2 s = none) ∧ (B3.closure s = .hermite → ∃ w,
        sides b1 b2 s = some ⟨0, vals.f2, BitVec.ofNat 64 (p3 % 2), n1 + p1, vals.n2, p3 / 2, vals.batch, w⟩ ∧
        ∀ j k b, j < vals.n2 → k < p3 / 2 → b < vol vals.batch → ∀ q : Cond, q.Among p1 N1 B1.closure →
          ∑ J ∈ Finset.range (n1 + p1), w J j k b * q.form t1 p1 n1 X1 J =
            pick B1.closure (fun i => at3 (d.d3 s) i j k b) (fun a i => at3 (d.d13 a s) i j k b) q) := by
    intro s
    match s with
    | .lower => exact ⟨b1n, b1s⟩
    | .upper => exact ⟨b2n, b2s⟩
  have Cd : ∀ s r', (B2.closure s = .hermite ∨ B3.closure r' = .hermite → ∃ w,
        sides (sides c11 c12) (sides c21 c22) s r' =
          some ⟨0, BitVec.ofNat 64 (p2 % 2), BitVec.ofNat 64 (p3 % 2), n1 + p1, p2 / 2, p3 / 2, vals.batch, w⟩ ∧
        ∀ j k b, j < p2 / 2 → k < p3 / 2 → b < vol vals.batch → ∀ q : Cond, q.Among p1 N1 B1.closure →
          ∑ J ∈ Finset.range (n1 + p1), w J j k b * q.form t1 p1 n1 X1 J =
            pick B1.closure (fun i => at3 (d.d23 s r') i j k b) (fun a i => at3 (d.d123 a s r') i j k b) q) := by
    intro s r'
    match s, r' with
    | .lower, .lower => exact c11s
    | .lower, .upper => exact c12s
    | .upper, .lower => exact c21s
    | .upper, .upper => exact c22s
  obtain ⟨c, ec, hc⟩ := C46_2d_partial hL h2 h3 hσ μ.inner spline.along23
    (Mat3.along23 ⟨0, vals.f2, vals.f3, n1 + p1, N2, N3, vals.batch, s1⟩)
    ⟨fun s => (sides a1 a2 s).map Mat3.along23, fun s => (sides b1 b2 s).map Mat3.along23,
        fun s t => (sides (sides c11 c12) (sides c21 c22) s t).map Mat3.along23⟩ rfl rfl
    (by simp [Mat3.along23, hf1, hs1, hb]) hf2 hs2 hs3
    { d1 := fun s => by
        split_ifs with hh
        · obtain ⟨w, ew, -⟩ := (A s).2 hh
          dsimp only
          rw [ew]
          exact ⟨_, rfl, rfl, rfl, rfl, hv3, rfl⟩
        · intro v ev
          dsimp only at ev
          rw [(A s).1 hh] at ev
          cases ev
      d2 := fun s hh => by
        obtain ⟨w, ew, -⟩ := (Bd s).2 hh
        dsimp only
        rw [ew]
        exact ⟨_, rfl, hv2, rfl, rfl, rfl⟩
      d12 := fun s r hr => by
        have hh := hd.both s r hr
        rw [if_pos hh]
        obtain ⟨w, ew, -⟩ := Cd s r (.inl hh)
        dsimp only
        rw [ew]
        exact ⟨_, rfl, rfl, rfl, rfl, rfl, rfl⟩ }
  rw [e1, Res.ok_bind, e2, Res.ok_bind, e3, Res.ok_bind, e4, Res.ok_bind, e5, Res.ok_bind, e6, Res.ok_bind, e7,
    Res.ok_bind, e8, Res.ok_bind, es1, Res.ok_bind, ec, Res.ok_bind]
  refine ⟨_, rfl, fun b hb' q1 q2 q3 hq1 hq2 hq3 => ?_⟩
  have hvol : ∀ I, I < n1 + p1 → I + (n1 + p1) * b <
      vol (Mat3.along23 ⟨0, vals.f2, vals.f3, n1 + p1, N2, N3, vals.batch, s1⟩).batch := fun I hI => by
    simpa [Mat3.along23, vol] using col_lt hI hb'
  rw [hs1]
  have key : ∀ I, I ∈ Finset.range (n1 + p1) → ∑ J ∈ Finset.range (n2 + p2), ∑ k ∈ Finset.range (n3 + p3),
      c J k (I + (n1 + p1) * b) * (q1.form t1 p1 n1 X1 I * (q2.form t2 p2 n2 X2 J * q3.form t3 p3 n3 X3 k)) =
      given2 B2.closure B3.closure (Mat3.along23 ⟨0, vals.f2, vals.f3, n1 + p1, N2, N3, vals.batch, s1⟩)
        ⟨fun s => (sides a1 a2 s).map Mat3.along23, fun s => (sides b1 b2 s).map Mat3.along23,
          fun s t => (sides (sides c11 c12) (sides c21 c22) s t).map Mat3.along23⟩ (I + (n1 + p1) * b) q2 q3 *
        q1.form t1 p1 n1 X1 I := by
    intro I hI
    rw [← hc _ (hvol I (Finset.mem_range.1 hI)) q2 q3 hq2 hq3, Finset.sum_mul]
    refine Finset.sum_congr rfl fun J _ => ?_
    rw [Finset.sum_mul]
    exact Finset.sum_congr rfl fun k _ => by ring
  rw [Finset.sum_congr rfl key]
  have hherm : ∀ {c : Closure} {p i : Nat}, c = .hermite → i < edgeEquations c p → i < p / 2 := by
    rintro _ p i rfl h; exact h
  match q2, q3, hq2, hq3 with
  | .point l, .point m, hq2, hq3 =>
    have : ∀ I ∈ Finset.range (n1 + p1), given2 B2.closure B3.closure
        (Mat3.along23 ⟨0, vals.f2, vals.f3, n1 + p1, N2, N3, vals.batch, s1⟩)
        ⟨fun s => (sides a1 a2 s).map Mat3.along23, fun s => (sides b1 b2 s).map Mat3.along23,
          fun s t => (sides (sides c11 c12) (sides c21 c22) s t).map Mat3.along23⟩ (I + (n1 + p1) * b)
        (.point l) (.point m) * q1.form t1 p1 n1 X1 I = s1 I l m b * q1.form t1 p1 n1 X1 I := by
      intro I hI
      simp only [given2, Mat3.along23, col_mod _ (Finset.mem_range.1 hI), col_div _ (Finset.mem_range.1 hI)]
    rw [Finset.sum_congr rfl this, hs1' l m b hq2 hq3 hb' q1 hq1]
    match q1 with
    | .point k => rfl
    | .side s i => rfl
  | .side s i, .point m, hq2, hq3 =>
    by_cases hh : B2.closure s = .hermite
    · obtain ⟨w, ew, hw⟩ := (A s).2 hh
      have : ∀ I ∈ Finset.range (n1 + p1), given2 B2.closure B3.closure
          (Mat3.along23 ⟨0, vals.f2, vals.f3, n1 + p1, N2, N3, vals.batch, s1⟩)
          ⟨fun s => (sides a1 a2 s).map Mat3.along23, fun s => (sides b1 b2 s).map Mat3.along23,
            fun s t => (sides (sides c11 c12) (sides c21 c22) s t).map Mat3.along23⟩ (I + (n1 + p1) * b)
          (.side s i) (.point m) * q1.form t1 p1 n1 X1 I = w I i m b * q1.form t1 p1 n1 X1 I := by
        intro I hI
        simp only [given2, if_pos hh, ew, Option.map_some, at2, Mat3.along23, col_mod _ (Finset.mem_range.1 hI),
          col_div _ (Finset.mem_range.1 hI)]
      rw [Finset.sum_congr rfl this, hw i m b (hherm hh hq2) (by rw [hv3]; exact hq3) hb' q1 hq1]
      match q1 with
      | .point k => simp [pick, given3, hh]
      | .side s i => simp [pick, given3, hh]
    · simp only [given2, if_neg hh, zero_mul, Finset.sum_const_zero]
      match q1 with
      | .point k => simp [given3, hh]
      | .side s i => simp [given3, hh]
  | .point l, .side s i, hq2, hq3 =>
    by_cases hh : B3.closure s = .hermite
    · obtain ⟨w, ew, hw⟩ := (Bd s).2 hh
      have : ∀ I ∈ Finset.range (n1 + p1), given2 B2.closure B3.closure
          (Mat3.along23 ⟨0, vals.f2, vals.f3, n1 + p1, N2, N3, vals.batch, s1⟩)
          ⟨fun s => (sides a1 a2 s).map Mat3.along23, fun s => (sides b1 b2 s).map Mat3.along23,
            fun s t => (sides (sides c11 c12) (sides c21 c22) s t).map Mat3.along23⟩ (I + (n1 + p1) * b)
          (.point l) (.side s i) * q1.form t1 p1 n1 X1 I = w I l i b * q1.form t1 p1 n1 X1 I := by
        intro I hI
        simp only [given2, if_pos hh, ew, Option.map_some, at2, Mat3.along23, col_mod _ (Finset.mem_range.1 hI),
          col_div _ (Finset.mem_range.1 hI)]
      rw [Finset.sum_congr rfl this, hw l i b (by rw [hv2]; exact hq2) (hherm hh hq3) hb' q1 hq1]
      match q1 with
      | .point k => simp [pick, given3, hh]
      | .side s i => simp [pick, given3, hh]
    · simp only [given2, if_neg hh, zero_mul, Finset.sum_const_zero]
      match q1 with
      | .point k => simp [given3, hh]
      | .side s i => simp [given3, hh]
  | .side s i, .side r j, hq2, hq3 =>
    by_cases hh : B2.closure s = .hermite ∧ B3.closure r = .hermite
    · obtain ⟨w, ew, hw⟩ := Cd s r (.inl hh.1)
      have : ∀ I ∈ Finset.range (n1 + p1), given2 B2.closure B3.closure
          (Mat3.along23 ⟨0, vals.f2, vals.f3, n1 + p1, N2, N3, vals.batch, s1⟩)
          ⟨fun s => (sides a1 a2 s).map Mat3.along23, fun s => (sides b1 b2 s).map Mat3.along23,
            fun s t => (sides (sides c11 c12) (sides c21 c22) s t).map Mat3.along23⟩ (I + (n1 + p1) * b)
          (.side s i) (.side r j) * q1.form t1 p1 n1 X1 I = w I i j b * q1.form t1 p1 n1 X1 I := by
        intro I hI
        simp only [given2, if_pos hh, ew, Option.map_some, at2, Mat3.along23, col_mod _ (Finset.mem_range.1 hI),
          col_div _ (Finset.mem_range.1 hI)]
      rw [Finset.sum_congr rfl this, hw i j b (hherm hh.1 hq2) (hherm hh.2 hq3) hb' q1 hq1]
      match q1 with
      | .point k => simp [pick, given3, hh]
      | .side s i => simp [pick, given3, hh]
    · simp only [given2, if_neg hh, zero_mul, Finset.sum_const_zero]
      match q1 with
      | .point k => simp [given3, hh]
      | .side a l => simp only [given3]; rw [if_neg (fun h => hh ⟨h.2.1, h.2.2⟩)]

/-! ## The boundary data that is read -/

/-- The chunks `d` and `d'` agree for a closure: they are the same if it is `HERMITE`; if not, they are both present or
both absent and have the same number `n` of derivatives. -/
def Agree {α : Type} (n : α → Nat) (c : Closure) (d d' : Option α) : Prop :=
  if c = .hermite then d = d' else d.map n = d'.map n

theorem Agree.map {α β : Type} {n : α → Nat} {m : β → Nat} {c : Closure} {d d' : Option α} (f : α → β)
    (h : Agree n c d d') (hf : ∀ x, m (f x) = n x) : Agree m c (d.map f) (d'.map f) := by
  unfold Agree at *
  split_ifs at h ⊢ with hc
  · rw [h]
  · rw [Option.map_map, Option.map_map, show m ∘ f = n from funext hf, h]

theorem checkDerivs_agree {c : Closure} {odd : Nat} {d d' : Option (U64 × Mat K)}
    (h : Agree (fun x => x.2.rows) c d d') : checkDerivs c odd d = checkDerivs c odd d' := by
  unfold Agree at h
  unfold checkDerivs
  split_ifs at h ⊢ with hc
  · rw [h]
  · match d, d', h with
    | none, none, _ => rfl
    | some (f, v), some (f', v'), h =>
      simp only [Option.map_some, Option.some.injEq] at h
      simp only [h]

theorem closureRows_agree {σ : Sched} {c : Closure} {odd nbe : Nat} {dx : K} {lo : U64} {d d' : Option (U64 × Mat K)}
    (h : Agree (fun x => x.2.rows) c d d') (b : Mat K) :
    closureRows σ c odd nbe dx lo d b = closureRows σ c odd nbe dx lo d' b := by
  unfold Agree at h
  cases c
  · rfl
  · rw [if_pos rfl] at h; rw [h]
  · rfl
  · rfl

/-- A builder in one dimension reads the derivatives for the `HERMITE` closures only; for the others, it looks at
their number. -/
theorem C46_1d_ignores (L : Lapack K) (σ : Sched) (B : Builder K) (junk : Nat → Nat → K) (spline vals : Mat K)
    {dmin dmin' dmax dmax' : Option (U64 × Mat K)} (hmin : Agree (fun x => x.2.rows) B.lower dmin dmin')
    (hmax : Agree (fun x => x.2.rows) B.upper dmax dmax') :
    B.apply L σ junk spline vals dmin dmax = B.apply L σ junk spline vals dmin' dmax' := by
  rw [Builder.apply, Builder.apply, checkDerivs_agree hmin, checkDerivs_agree hmax]
  simp only [closureRows_agree hmin, closureRows_agree hmax]

theorem slab_ignores (L : Lapack K) (σ : Sched) (B : Builder K) (junk : Nat → Nat → K) (spline vals : Slab K)
    {dmin dmin' dmax dmax' : Option (Slab K)} (hmin : Agree (fun x => x.mat.rows) B.lower dmin dmin')
    (hmax : Agree (fun x => x.mat.rows) B.upper dmax dmax') :
    B.applySlab L σ junk spline vals dmin dmax = B.applySlab L σ junk spline vals dmin' dmax' := by
  have hf : ∀ x : Slab K, (seen spline.batch x).2.rows = x.mat.rows := fun x => by
    unfold seen; dsimp only; split_ifs <;> rfl
  rw [Builder.applySlab, Builder.applySlab,
    C46_1d_ignores L σ B junk spline.mat vals.mat (hmin.map _ hf) (hmax.map _ hf)]

theorem apply1_ignores (L : Lapack K) (σ : Sched) (B : Builder K) (junk : Nat → Nat → K) (spline vals : Mat2 K)
    {dmin dmin' dmax dmax' : Option (Mat2 K)} (hmin : Agree Mat2.n1 B.lower dmin dmin')
    (hmax : Agree Mat2.n1 B.upper dmax dmax') :
    B.apply1 L σ junk spline vals dmin dmax = B.apply1 L σ junk spline vals dmin' dmax' := by
  rw [Builder.apply1, Builder.apply1,
    slab_ignores L σ B junk _ _ (hmin.map Mat2.along1 fun _ => rfl) (hmax.map Mat2.along1 fun _ => rfl)]

theorem apply1of3_ignores (L : Lapack K) (σ : Sched) (B : Builder K) (junk : Nat → Nat → K) (spline vals : Mat3 K)
    {dmin dmin' dmax dmax' : Option (Mat3 K)} (hmin : Agree Mat3.n1 B.lower dmin dmin')
    (hmax : Agree Mat3.n1 B.upper dmax dmax') :
    B.apply1of3 L σ junk spline vals dmin dmax = B.apply1of3 L σ junk spline vals dmin' dmax' := by
  rw [Builder.apply1of3, Builder.apply1of3,
    slab_ignores L σ B junk _ _ (hmin.map Mat3.along1 fun _ => rfl) (hmax.map Mat3.along1 fun _ => rfl)]

/-- What the builder in two dimensions computes depends only on the derivatives at the ends where the closure is
`HERMITE`, and on the mixed ones at the pairs of such ends.  (Along the first dimension, the number of derivatives given
without need is checked to be zero.) -/
theorem C46_2d_ignores (L : Lapack K) (σ : Sched) (B1 B2 : Builder K) (μ : Memory2 K) (spline vals : Mat2 K)
    {d d' : Derivs2 K} (h1 : ∀ s, Agree Mat2.n1 (B1.closure s) (d.d1 s) (d'.d1 s))
    (h2 : ∀ s, B2.closure s = .hermite → d.d2 s = d'.d2 s)
    (h12 : ∀ s r, B2.closure r = .hermite → Agree Mat2.n1 (B1.closure s) (d.d12 s r) (d'.d12 s r)) :
    build2 L σ B1 B2 μ spline vals d = build2 L σ B1 B2 μ spline vals d' := by
  have hd : ∀ junk mem size1 s,
      Builder.derivs2 L σ B1 B2 junk mem size1 vals d s = Builder.derivs2 L σ B1 B2 junk mem size1 vals d' s := by
    intro junk mem size1 s
    unfold Builder.derivs2
    dsimp only
    split_ifs with hc
    · rw [h2 s hc]
      match d'.d2 s with
      | none => rfl
      | some v => dsimp only; rw [apply1_ignores L σ B1 junk _ _ (h12 .lower s hc) (h12 .upper s hc)]
    · rfl
  rw [build2, build2]
  simp only [hd, apply1_ignores L σ B1 (μ.tmp 1) _ vals (h1 .lower) (h1 .upper)]

/-- The same in three dimensions, except that the mixed derivatives along the second and the third dimension have an
influence as soon as one of the two closures is `HERMITE`. -/
theorem C46_3d_ignores_partial (L : Lapack K) (σ : Sched) (B1 B2 B3 : Builder K) (μ : Memory3 K) (spline vals : Mat3 K)
    {d d' : Derivs3 K} (h1 : ∀ s, Agree Mat3.n1 (B1.closure s) (d.d1 s) (d'.d1 s))
    (h2 : ∀ s, B2.closure s = .hermite → d.d2 s = d'.d2 s) (h3 : ∀ s, B3.closure s = .hermite → d.d3 s = d'.d3 s)
    (h12 : ∀ s r, B2.closure r = .hermite → Agree Mat3.n1 (B1.closure s) (d.d12 s r) (d'.d12 s r))
    (h13 : ∀ s r, B3.closure r = .hermite → Agree Mat3.n1 (B1.closure s) (d.d13 s r) (d'.d13 s r))
    (h23 : ∀ s r, B2.closure s = .hermite ∨ B3.closure r = .hermite → d.d23 s r = d'.d23 s r ∧
      ∀ a, Agree Mat3.n1 (B1.closure a) (d.d123 a s r) (d'.d123 a s r)) :
    build3 L σ B1 B2 B3 μ spline vals d = build3 L σ B1 B2 B3 μ spline vals d' := by
  have hd2 : ∀ junk mem size1 s, derivs2of3 L σ B1 B2 junk mem size1 vals d s =
      derivs2of3 L σ B1 B2 junk mem size1 vals d' s := by
    intro junk mem size1 s
    unfold derivs2of3
    dsimp only
    split_ifs with hc
    · rw [h2 s hc]
      match d'.d2 s with
      | none => rfl
      | some v => dsimp only; rw [apply1of3_ignores L σ B1 junk _ _ (h12 .lower s hc) (h12 .upper s hc)]
    · rfl
  have hd3 : ∀ junk mem size1 s, derivs3of3 L σ B1 B3 junk mem size1 vals d s =
      derivs3of3 L σ B1 B3 junk mem size1 vals d' s := by
    intro junk mem size1 s
    unfold derivs3of3
    dsimp only
    split_ifs with hc
    · rw [h3 s hc]
      match d'.d3 s with
      | none => rfl
      | some v => dsimp only; rw [apply1of3_ignores L σ B1 junk _ _ (h13 .lower s hc) (h13 .upper s hc)]
    · rfl
  have hd23 : ∀ junk mem size1 s r, derivs23of3 L σ B1 B2 B3 junk mem size1 vals d s r =
      derivs23of3 L σ B1 B2 B3 junk mem size1 vals d' s r := by
    intro junk mem size1 s r
    unfold derivs23of3
    dsimp only
    split_ifs with hc
    · obtain ⟨h, ha⟩ := h23 s r hc
      rw [h]
      match d'.d23 s r with
      | none => rfl
      | some v => dsimp only; rw [apply1of3_ignores L σ B1 junk _ _ (ha .lower) (ha .upper)]
    · rfl
  rw [build3, build3]
  simp only [hd2, hd3, hd23, apply1of3_ignores L σ B1 (μ.tmp 8) _ vals (h1 .lower) (h1 .upper)]

/-! ## The mixed derivatives of the builder in three dimensions -/

theorem build3_steps {L : Lapack K} {σ : Sched} {B1 B2 B3 : Builder K} {μ : Memory3 K} {spline vals : Mat3 K}
    {d : Derivs3 K} (hb : vol vals.batch ≠ 0) {r : Mat3 K} (h : build3 L σ B1 B2 B3 μ spline vals d = .ok r) :
    ∃ (full : Dom Unit) (size1 : U64) (m2 : Side → Option (Mat2 K)) (m3 : Side → Option (Mat3 K))
      (m23 : Side → Side → Option (Mat3 K)), B1.bs.fullDomain = .ok full ∧ Dom.size full = .ok size1 ∧
      (∀ s, ∃ junk mem, derivs3of3 L σ B1 B3 junk mem size1.toNat vals d s = .ok (m3 s)) ∧
      (∀ s r, ∃ junk mem, derivs23of3 L σ B1 B2 B3 junk mem size1.toNat vals d s r = .ok (m23 s r)) ∧
      ∃ s1 r', build2 L σ B2 B3 μ.inner spline.along23 s1 ⟨m2, fun s => (m3 s).map Mat3.along23,
        fun s r => (m23 s r).map Mat3.along23⟩ = .ok r' ∧ s1.batch = (0, size1.toNat) :: vals.batch := by
  rw [build3] at h
  obtain ⟨N1, _x1, h⟩ := Res.bind_eq_ok.1 h
  obtain ⟨N2, _x2, h⟩ := Res.bind_eq_ok.1 h
  obtain ⟨N3, _x3, h⟩ := Res.bind_eq_ok.1 h
  obtain ⟨_u1, _x4, h⟩ := Res.bind_eq_ok.1 h
  obtain ⟨_u2, _x5, h⟩ := Res.bind_eq_ok.1 h
  rw [if_neg hb] at h
  obtain ⟨full, ef, h⟩ := Res.bind_eq_ok.1 h
  obtain ⟨size1, es, h⟩ := Res.bind_eq_ok.1 h
  obtain ⟨a1, _x6, h⟩ := Res.bind_eq_ok.1 h
  obtain ⟨a2, _x7, h⟩ := Res.bind_eq_ok.1 h
  obtain ⟨b1, e1, h⟩ := Res.bind_eq_ok.1 h
  obtain ⟨b2, e2, h⟩ := Res.bind_eq_ok.1 h
  obtain ⟨c11, e11, h⟩ := Res.bind_eq_ok.1 h
  obtain ⟨c12, e12, h⟩ := Res.bind_eq_ok.1 h
  obtain ⟨c21, e21, h⟩ := Res.bind_eq_ok.1 h
  obtain ⟨c22, e22, h⟩ := Res.bind_eq_ok.1 h
  obtain ⟨s1, hs1, h⟩ := Res.bind_eq_ok.1 h
  obtain ⟨r', hr', h⟩ := Res.bind_eq_ok.1 h
  refine ⟨full, size1, _, sides b1 b2, sides (sides c11 c12) (sides c21 c22), ef, es, ?_, ?_, _, r', hr', ?_⟩
  · intro s
    match s with
    | .lower => exact ⟨_, _, e1⟩
    | .upper => exact ⟨_, _, e2⟩
  · intro s r
    match s, r with
    | .lower, .lower => exact ⟨_, _, e11⟩
    | .lower, .upper => exact ⟨_, _, e12⟩
    | .upper, .lower => exact ⟨_, _, e21⟩
    | .upper, .upper => exact ⟨_, _, e22⟩
  · rw [Builder.apply1of3] at hs1
    obtain ⟨m, _x8, hs1⟩ := Res.bind_eq_ok.1 hs1
    rw [← Res.ok.inj hs1]
    rfl

/-- A builder that has succeeded on a batch that is not empty has been given no derivative for the closures that need
none. -/
theorem apply_no_derivs {L : Lapack K} {σ : Sched} {B : Builder K} {junk : Nat → Nat → K} {spline vals : Mat K}
    {dmin dmax : Option (U64 × Mat K)} {r : Mat K} (h : B.apply L σ junk spline vals dmin dmax = .ok r)
    (hc : vals.cols ≠ 0) (s : Side) (hs : B.closure s ≠ .hermite) (x : U64 × Mat K)
    (hx : sides dmin dmax s = some x) : x.2.rows = 0 := by
  rw [Builder.apply] at h
  obtain ⟨N, _x1, h⟩ := Res.bind_eq_ok.1 h
  obtain ⟨_u1, _x2, h⟩ := Res.bind_eq_ok.1 h
  obtain ⟨_u2, _x3, h⟩ := Res.bind_eq_ok.1 h
  rw [if_neg hc] at h
  obtain ⟨nb, _x4, h⟩ := Res.bind_eq_ok.1 h
  obtain ⟨_u3, _x5, h⟩ := Res.bind_eq_ok.1 h
  obtain ⟨_u4, c1, h⟩ := Res.bind_eq_ok.1 h
  obtain ⟨_u5, c2, h⟩ := Res.bind_eq_ok.1 h
  have key : ∀ (c : Closure) (odd : Nat) (u : Unit), c ≠ .hermite → checkDerivs c odd (some x) = .ok u →
      x.2.rows = 0 := by
    intro c odd u hne e
    rw [checkDerivs, if_neg hne] at e
    by_contra hz
    simp [Res.guardAbort, hz] at e
  match s with
  | .lower =>
    rw [show dmin = some x from hx] at c1
    exact key _ _ _ hs c1
  | .upper =>
    rw [show dmax = some x from hx] at c2
    exact key _ _ _ hs c2

theorem derivs2_no_derivs {L : Lapack K} {σ : Sched} {B1 B2 : Builder K} {junk : Nat → Nat → K}
    {mem : Nat → Nat → Nat → K} {size1 : Nat} {vals : Mat2 K} {d : Derivs2 K} {s : Side} {o : Option (Mat2 K)}
    (h : Builder.derivs2 L σ B1 B2 junk mem size1 vals d s = .ok o) (hc : B2.closure s = .hermite)
    (hp : 2 ≤ B2.bs.degree) (hb : vol vals.batch ≠ 0) (a : Side) (ha : B1.closure a ≠ .hermite) (w : Mat2 K)
    (hw : d.d12 a s = some w) : w.n1 = 0 := by
  unfold Builder.derivs2 at h
  dsimp only at h
  rw [if_pos hc] at h
  match hv : d.d2 s, h with
  | none, h => cases h
  | some v, h =>
    dsimp only at h
    obtain ⟨r, hr, -⟩ := Res.bind_eq_ok.1 h
    rw [Builder.apply1] at hr
    obtain ⟨m, hm, -⟩ := Res.bind_eq_ok.1 hr
    rw [applySlab] at hm
    obtain ⟨_u, hg, hm⟩ := Res.bind_eq_ok.1 hm
    have hvol : vol ((BitVec.ofNat 64 (B2.bs.degree % 2), B2.bs.degree / 2) :: vals.batch) ≠ 0 := by
      simp only [vol, List.map_cons, List.prod_cons]
      exact Nat.mul_ne_zero (by omega) hb
    have hcols : v.along1.mat.cols ≠ 0 := by
      intro hz
      have : sameBatch v.along1.batch
          ((BitVec.ofNat 64 (B2.bs.degree % 2), B2.bs.degree / 2) :: vals.batch) = false := by
        have hz' : vol v.along1.batch = 0 := hz
        simp only [sameBatch, Bool.or_eq_false_iff, decide_eq_false_iff_not]
        exact ⟨fun h => hvol h.2, fun h => hvol (by rw [← h]; exact hz')⟩
      rw [show (Mat2.along1 ⟨0, BitVec.ofNat 64 (B2.bs.degree % 2), size1, B2.bs.degree / 2, vals.batch, mem⟩).batch =
        (BitVec.ofNat 64 (B2.bs.degree % 2), B2.bs.degree / 2) :: vals.batch from rfl, this] at hg
      cases hg
    have := apply_no_derivs hm hcols a ha (seen ((BitVec.ofNat 64 (B2.bs.degree % 2), B2.bs.degree / 2) :: vals.batch)
      w.along1) (by
      match a with
      | .lower => rw [hw]; rfl
      | .upper => rw [hw]; rfl)
    unfold seen at this
    dsimp only at this
    split_ifs at this <;> exact this

/-- The code violates the property: with a `HERMITE` closure along the second dimension and another closure along the
third one, no mixed derivative takes part in the problem (`given3` is zero or needs none), but the builder in three
dimensions dereferences the optional chunk, and does not succeed if it is absent. -/
theorem C46_mixed_not_needed {L : Lapack K} {σ : Sched} {B1 B2 B3 : Builder K} {μ : Memory3 K} {spline vals : Mat3 K}
    {d : Derivs3 K} (hb : vol vals.batch ≠ 0) {s2 s3 : Side} (hc : B2.closure s2 = .hermite ∨ B3.closure s3 = .hermite)
    (hd : d.d23 s2 s3 = none) (r : Mat3 K) : build3 L σ B1 B2 B3 μ spline vals d ≠ .ok r := by
  intro h
  obtain ⟨-, size1, -, -, m23, -, -, -, h23, -⟩ := build3_steps hb h
  obtain ⟨junk, mem, e⟩ := h23 s2 s3
  rw [derivs23of3, if_pos hc, hd] at e
  cases e

/-- The code violates the property: if the closure along the third dimension is `HERMITE` and the one along the second
is not, the builder in three dimensions succeeds for no data at all, as soon as both degrees are at least 2 and the batch
domain is not empty: without mixed derivatives by `C46_mixed_not_needed`, with them because the builder along the second
dimension then receives derivatives that it refuses. -/
theorem C46_mixed_rejected {L : Lapack K} {σ : Sched} {B1 B2 B3 : Builder K} {μ : Memory3 K} {spline vals : Mat3 K}
    {d : Derivs3 K} (h1 : B1.bs.Is per1 p1 n1 t1) (hb : vol vals.batch ≠ 0) {s2 s3 : Side}
    (hc2 : B2.closure s2 ≠ .hermite) (hc3 : B3.closure s3 = .hermite) (hp2 : 2 ≤ B2.bs.degree)
    (hp3 : 2 ≤ B3.bs.degree) (r : Mat3 K) : build3 L σ B1 B2 B3 μ spline vals d ≠ .ok r := by
  intro h
  have hsm := h1.small
  have hn := h1.cells
  obtain ⟨full, size1, m2, m3, m23, ef, es, h3, h23, s1, r', h', hs1⟩ := build3_steps hb h
  have hsize : size1.toNat ≠ 0 := by
    rw [h1.full] at ef
    rw [← Res.ok.inj ef, seg_size (by omega)] at es
    rw [← Res.ok.inj es, BitVec.toNat_ofNat, Nat.mod_eq_of_lt (by omega)]
    omega
  have hvol : vol s1.batch ≠ 0 := by
    rw [hs1]
    simp only [vol, List.map_cons, List.prod_cons]
    exact Nat.mul_ne_zero hsize hb
  obtain ⟨junk, mem, e⟩ := h23 s2 s3
  obtain ⟨w, ew, hw⟩ : ∃ w : Mat3 K, m23 s2 s3 = some w ∧ w.n2 = B2.bs.degree / 2 := by
    rw [derivs23of3, if_pos (.inr hc3)] at e
    match hd : d.d23 s2 s3, e with
    | none, e => cases e
    | some v, e =>
      dsimp only at e
      obtain ⟨r, hr, e⟩ := Res.bind_eq_ok.1 e
      rw [Builder.apply1of3] at hr
      obtain ⟨m, -, hr⟩ := Res.bind_eq_ok.1 hr
      exact ⟨r, (Res.ok.inj e).symm, by rw [← Res.ok.inj hr]; rfl⟩
  rw [build2] at h'
  obtain ⟨N1, _x1, h'⟩ := Res.bind_eq_ok.1 h'
  obtain ⟨N2, _x2, h'⟩ := Res.bind_eq_ok.1 h'
  obtain ⟨_u1, _x4, h'⟩ := Res.bind_eq_ok.1 h'
  obtain ⟨_u2, _x5, h'⟩ := Res.bind_eq_ok.1 h'
  rw [if_neg hvol] at h'
  obtain ⟨full2, _x6, h'⟩ := Res.bind_eq_ok.1 h'
  obtain ⟨size2, _x7, h'⟩ := Res.bind_eq_ok.1 h'
  obtain ⟨dmin, emin, h'⟩ := Res.bind_eq_ok.1 h'
  obtain ⟨s2', _x8, h'⟩ := Res.bind_eq_ok.1 h'
  obtain ⟨dmax, emax, h'⟩ := Res.bind_eq_ok.1 h'
  have : w.along23.n1 = 0 := by
    match s3, hc3, ew with
    | .lower, hc3, ew => exact derivs2_no_derivs emin hc3 hp3 hvol s2 hc2 w.along23 (by dsimp only; rw [ew]; rfl)
    | .upper, hc3, ew => exact derivs2_no_derivs emax hc3 hp3 hvol s2 hc2 w.along23 (by dsimp only; rw [ew]; rfl)
  rw [show w.along23.n1 = w.n2 from rfl, hw] at this
  omega

/-! ## A case that meets the hypotheses: quadratic periodic B-splines on 3 cells along each dimension -/

theorem example_ready {L : Lapack Rat} (hL : L.Exact) {σ : Sched} (hσ : σ.Valid) : ∃ B : Builder Rat,
    Ready L B true 2 3 (uniformKnot (0 : Rat) 3 3 2) 3 (fun k => [1 / 2, 3 / 2, 5 / 2].getD k 0) ∧
    ∀ s, B.closure s = .periodic := by
  obtain ⟨u, eu, hu⟩ := BSpl.is_uniform (p := 2) (by norm_num) true (a := (0 : Rat)) (b := 3) (by norm_num) (n := 3)
    (by norm_num) (by norm_num)
  have hgo : (UBS.mk' 2 true (0 : Rat) 3 (BitVec.ofNat 64 3) >>= fun u =>
      checkValidGrid (.uniform u) .periodic .periodic (seg () 0 3) (listPoints [1 / 2, 3 / 2, 5 / 2])) = .ok () := by
    decide +kernel
  have hof : (UBS.mk' 2 true (0 : Rat) 3 (BitVec.ofNat 64 3) >>= fun u =>
      computeOffset (.uniform u) (seg () 0 3) (listPoints [1 / 2, 3 / 2, 5 / 2])) = .ok 1 := by
    decide +kernel
  rw [eu, Res.ok_bind] at hgo hof
  have hm : allocateMatrix (.uniform u) 1 1 = .ok (mkDense (BitVec.ofNat 64 3)) := by
    rw [allocateMatrix, hu.degree, hu.nbasis, hu.periodic]
    rfl
  have hsmall : ∀ i j, i < 3 → j < 3 → |collocation (condition (uniformKnot (0 : Rat) 3 3 2) 2 3 0 3
      (fun k => [1 / 2, 3 / 2, 5 / 2].getD k 0) ((uniformKnot (0 : Rat) 3 3 2 (2 + 3) - uniformKnot (0 : Rat) 3 3 2 2) /
        (3 : Nat))) (3 + 2) 3 1 i j| < 1 / 10 ^ 15 → collocation (condition (uniformKnot (0 : Rat) 3 3 2) 2 3 0 3
      (fun k => [1 / 2, 3 / 2, 5 / 2].getD k 0) ((uniformKnot (0 : Rat) 3 3 2 (2 + 3) - uniformKnot (0 : Rat) 3 3 2 2) /
        (3 : Nat))) (3 + 2) 3 1 i j = 0 := by
    intro i j hi hj
    rw [example_matrix i hi j hj]
    split_ifs <;> intro h <;> norm_num [abs_of_pos] at h
  obtain ⟨B, eB, ho, hcl⟩ := (C41_constructs_dense hu hL σ (lower := .periodic) (upper := .periodic) (by simp [Fits])
    example_points hgo hof (by norm_num) (by norm_num) (nb := 3) rfl rfl rfl hm).1 (by
      refine (Regular.congr fun i j hi hj => example_matrix i hi j hj).2 fun x hx j hj => ?_
      have h0 := hx 0 (by norm_num)
      have h1 := hx 1 (by norm_num)
      have h2 := hx 2 (by norm_num)
      simp only [Finset.sum_range_succ, Finset.sum_range_zero] at h0 h1 h2
      norm_num at h0 h1 h2
      interval_cases j <;> linarith)
  obtain ⟨-, eb, el, eu', -⟩ := builder_inv hu (by norm_num) eB
  refine ⟨B, ⟨by rw [eb]; exact hu, ⟨σ, 0, _, hσ, example_points, by rw [eb, el, eu']; exact eB⟩, by rw [ho]; norm_num,
    by norm_num, hcl, by rw [el, ho]; exact hsmall, ?_⟩, fun s => by cases s <;> assumption⟩
  intro _ i j hi hj _
  rw [el, ho]
  have := example_matrix i hi j hj
  have h' := example_matrix j hj i hi
  simp only [eq_comm (a := j)] at h'
  exact this.trans h'.symm

/-- Derivatives on another batch domain than the one of the spline are never accepted. -/
theorem C46_other_batch (L : Lapack K) {σ : Sched} (hσ : σ.Valid) (B : Builder K) (hB : B.lower = .hermite)
    (hp : 2 ≤ B.bs.degree) (junk : Nat → Nat → K) (spline vals v : Slab K) (hv : v.batch ≠ spline.batch)
    (hc : spline.mat.cols ≠ 0) (dmax : Option (Slab K)) (r : Mat K) :
    B.applySlab L σ junk spline vals (some v) dmax ≠ .ok r := by
  intro e
  rw [applySlab] at e
  obtain ⟨-, -, e⟩ := Res.bind_eq_ok.1 e
  rw [Builder.apply] at e
  obtain ⟨k, -, e⟩ := Res.bind_eq_ok.1 e
  obtain ⟨-, -, e⟩ := Res.bind_eq_ok.1 e
  obtain ⟨u1, e1, e⟩ := Res.bind_eq_ok.1 e
  have h1 : vals.mat.cols = spline.mat.cols := by
    by_contra h
    rw [decide_eq_false h] at e1
    cases e1
  rw [if_neg (by rw [h1]; exact hc)] at e
  obtain ⟨nb, -, e⟩ := Res.bind_eq_ok.1 e
  obtain ⟨-, -, e⟩ := Res.bind_eq_ok.1 e
  obtain ⟨-, -, e⟩ := Res.bind_eq_ok.1 e
  obtain ⟨-, -, e⟩ := Res.bind_eq_ok.1 e
  obtain ⟨b, e, -⟩ := Res.bind_eq_ok.1 e
  rw [hB, Option.map_some, seen, if_neg hv] at e
  simp only [closureRows] at e
  obtain ⟨-, -, e⟩ := Res.bind_eq_ok.1 e
  rw [colLoop] at e
  obtain ⟨j, l, hl⟩ : ∃ j l, σ.cols spline.mat.cols = j :: l := by
    cases h : σ.cols spline.mat.cols with
    | nil =>
      have := (hσ.cols spline.mat.cols).length_eq
      rw [h, List.length_range] at this
      exact absurd this.symm hc
    | cons j l => exact ⟨j, l, rfl⟩
  rw [hl, List.foldlM_cons] at e
  obtain ⟨b1, e, -⟩ := Res.bind_eq_ok.1 e
  obtain ⟨q, hq⟩ : ∃ q, Closure.hermite.equations B.bs.degree = q + 1 := by
    refine ⟨B.bs.degree / 2 - 1, ?_⟩
    rw [Closure.equations, if_neg (by decide)]
    omega
  rw [hq, forLoop] at e
  obtain ⟨b2, e, -⟩ := Res.bind_eq_ok.1 e
  obtain ⟨y, e, -⟩ := Res.bind_eq_ok.1 e
  rw [Mat.rd, if_neg (by simp)] at e
  cases e

/-- The splines in two dimensions, with a batch dimension of extent 7. -/
example {L : Lapack Rat} (hL : L.Exact) {σ : Sched} (hσ : σ.Valid) (μ : Memory2 Rat) : ∃ B : Builder Rat,
    ∀ y : Nat → Nat → Nat → Rat, ∃ c, build2 L σ B B μ ⟨0, 0, 5, 5, [(0, 7)], fun _ _ _ => 0⟩
        ⟨0, 0, 3, 3, [(0, 7)], y⟩ ⟨fun _ => none, fun _ => none, fun _ _ => none⟩ =
          .ok ⟨0, 0, 5, 5, [(0, 7)], c⟩ ∧
      ∀ b < 7, ∀ k < 3, ∀ l < 3, ∑ I ∈ Finset.range 5, ∑ J ∈ Finset.range 5, c I J b *
        (bspline (uniformKnot (0 : Rat) 3 3 2) 3 2 I ([1 / 2, 3 / 2, 5 / 2].getD k 0) *
          bspline (uniformKnot (0 : Rat) 3 3 2) 3 2 J ([1 / 2, 3 / 2, 5 / 2].getD l 0)) = y k l b := by
  obtain ⟨B, hB, hc⟩ := example_ready hL hσ
  refine ⟨B, fun y => ?_⟩
  obtain ⟨c, e, h⟩ := C46_2d_partial hL hB hB hσ μ ⟨0, 0, 5, 5, [(0, 7)], fun _ _ _ => 0⟩
    ⟨0, 0, 3, 3, [(0, 7)], y⟩ ⟨fun _ => none, fun _ => none, fun _ _ => none⟩ rfl rfl rfl rfl rfl rfl
    { d1 := fun s => by rw [hc s]; rw [if_neg (by decide)]; intro v hv; cases hv
      d2 := fun s hs => by rw [hc s] at hs; cases hs
      d12 := fun s r hs => by rw [hc r] at hs; cases hs }
  have e3 : uniformKnot (0 : Rat) 3 3 2 (2 + 3) = 3 := by decide +kernel
  refine ⟨c, e, fun b hb k hk l hl => ?_⟩
  have := h b hb (.point k) (.point l) hk hl
  simp only [Cond.form, e3] at this
  exact this

/-- The splines in three dimensions, without batch. -/
example {L : Lapack Rat} (hL : L.Exact) {σ : Sched} (hσ : σ.Valid) (μ : Memory3 Rat) : ∃ B : Builder Rat,
    ∀ y : Nat → Nat → Nat → Nat → Rat, ∃ c, build3 L σ B B B μ ⟨0, 0, 0, 5, 5, 5, [], fun _ _ _ _ => 0⟩
        ⟨0, 0, 0, 3, 3, 3, [], y⟩
        ⟨fun _ => none, fun _ => none, fun _ => none, fun _ _ => none, fun _ _ => none, fun _ _ => none,
          fun _ _ _ => none⟩ = .ok ⟨0, 0, 0, 5, 5, 5, [], c⟩ ∧
      ∀ k < 3, ∀ l < 3, ∀ m < 3, ∑ I ∈ Finset.range 5, ∑ J ∈ Finset.range 5, ∑ H ∈ Finset.range 5, c I J H 0 *
        (bspline (uniformKnot (0 : Rat) 3 3 2) 3 2 I ([1 / 2, 3 / 2, 5 / 2].getD k 0) *
          (bspline (uniformKnot (0 : Rat) 3 3 2) 3 2 J ([1 / 2, 3 / 2, 5 / 2].getD l 0) *
            bspline (uniformKnot (0 : Rat) 3 3 2) 3 2 H ([1 / 2, 3 / 2, 5 / 2].getD m 0))) = y k l m 0 := by
  obtain ⟨B, hB, hc⟩ := example_ready hL hσ
  refine ⟨B, fun y => ?_⟩
  obtain ⟨c, e, h⟩ := C46_3d_partial hL hB hB hB hσ μ ⟨0, 0, 0, 5, 5, 5, [], fun _ _ _ _ => 0⟩
    ⟨0, 0, 0, 3, 3, 3, [], y⟩ ⟨fun _ => none, fun _ => none, fun _ => none, fun _ _ => none, fun _ _ => none,
      fun _ _ => none, fun _ _ _ => none⟩ rfl rfl rfl rfl rfl rfl rfl rfl rfl
    { d1 := fun s => by rw [hc s, GivenD, if_neg (by decide)]; intro v hv; cases hv
      d2 := fun s hs => by rw [hc s] at hs; cases hs
      d3 := fun s hs => by rw [hc s] at hs; cases hs
      d23 := fun s r hs => by rw [hc r, hc s] at hs; rcases hs with hs | hs <;> cases hs
      both := fun s r hs => by rw [hc r] at hs; cases hs }
  have e3 : uniformKnot (0 : Rat) 3 3 2 (2 + 3) = 3 := by decide +kernel
  refine ⟨c, e, fun k hk l hl m hm => ?_⟩
  have := h 0 (show 0 < vol [] by decide) (.point k) (.point l) (.point m) hk hl hm
  simp only [Cond.form, e3] at this
  exact this

/-- `C46_mixed_rejected` on these builders, with a `HERMITE` closure along the third dimension. -/
example {L : Lapack Rat} (hL : L.Exact) {σ : Sched} (hσ : σ.Valid) (μ : Memory3 Rat) (spline : Mat3 Rat)
    (y : Nat → Nat → Nat → Nat → Rat) (d : Derivs3 Rat) : ∃ B : Builder Rat, ∀ r,
    build3 L σ B B { B with lower := .hermite } μ spline ⟨0, 0, 0, 3, 3, 2, [], y⟩ d ≠ .ok r := by
  obtain ⟨B, hB, hc⟩ := example_ready hL hσ
  have h2 := hB.is.degree
  refine ⟨B, C46_mixed_rejected hB.is (show vol [] ≠ 0 by decide) (s2 := .lower) (s3 := .lower) ?_ rfl (by omega)
    (show 2 ≤ B.bs.degree by omega)⟩
  rw [hc]
  decide

/-- `C46_other_batch` on this builder with another closure. -/
example {L : Lapack Rat} (hL : L.Exact) {σ : Sched} (hσ : σ.Valid) (junk : Nat → Nat → Rat) (y z : Nat → Nat → Rat) :
    ∃ B : Builder Rat, ∀ r, { B with lower := .hermite }.applySlab L σ junk ⟨0, ⟨5, 7, fun _ _ => 0⟩, [(0, 7)]⟩
      ⟨0, ⟨2, 7, y⟩, [(0, 7)]⟩ (some ⟨0, ⟨1, 7, z⟩, [(1, 7)]⟩) none ≠ .ok r := by
  obtain ⟨B, hB, hc⟩ := example_ready hL hσ
  have h2 := hB.is.degree
  exact ⟨B, C46_other_batch L hσ { B with lower := .hermite } rfl (show 2 ≤ B.bs.degree by omega) junk _ _ _
    (show [((1 : U64), 7)] ≠ [(0, 7)] by decide) (show 7 ≠ 0 by decide) none⟩

theorem sameBatch_false {a b : List (U64 × Nat)} (h : a ≠ b) (h0 : vol a ≠ 0 ∨ vol b ≠ 0) : sameBatch a b = false := by
  simp only [sameBatch, Bool.or_eq_false_iff, decide_eq_false_iff_not]
  exact ⟨fun h' => h0.elim (· h'.1) (· h'.2), h⟩

/-- Builders reject values on another batch domain than the spline, if one of the two is not empty. -/
theorem C46_batch_rejected (L : Lapack K) (σ : Sched) (B1 B2 B3 : Builder K) :
    (∀ junk (spline vals : Slab K) dmin dmax, vals.batch ≠ spline.batch → vol vals.batch ≠ 0 ∨ vol spline.batch ≠ 0 →
      B1.applySlab L σ junk spline vals dmin dmax = .abort) ∧
    (∀ μ (spline vals : Mat2 K) d r, vals.batch ≠ spline.batch → vol vals.batch ≠ 0 ∨ vol spline.batch ≠ 0 →
      build2 L σ B1 B2 μ spline vals d ≠ .ok r) ∧
    ∀ μ (spline vals : Mat3 K) d r, vals.batch ≠ spline.batch → vol vals.batch ≠ 0 ∨ vol spline.batch ≠ 0 →
      build3 L σ B1 B2 B3 μ spline vals d ≠ .ok r := by
  refine ⟨fun junk spline vals dmin dmax h h0 => ?_, fun μ spline vals d r h h0 e => ?_, fun μ spline vals d r h h0 e => ?_⟩
  · rw [applySlab, sameBatch_false h h0]
    rfl
  · rw [build2] at e
    obtain ⟨_, _, e⟩ := Res.bind_eq_ok.1 e
    obtain ⟨_, _, e⟩ := Res.bind_eq_ok.1 e
    obtain ⟨_, _, e⟩ := Res.bind_eq_ok.1 e
    obtain ⟨_, g, -⟩ := Res.bind_eq_ok.1 e
    rw [sameBatch_false h h0] at g
    cases g
  · rw [build3] at e
    obtain ⟨_, _, e⟩ := Res.bind_eq_ok.1 e
    obtain ⟨_, _, e⟩ := Res.bind_eq_ok.1 e
    obtain ⟨_, _, e⟩ := Res.bind_eq_ok.1 e
    obtain ⟨_, _, e⟩ := Res.bind_eq_ok.1 e
    obtain ⟨_, g, -⟩ := Res.bind_eq_ok.1 e
    rw [sameBatch_false h h0] at g
    cases g

example : vol [((0 : U64), 3)] ≠ 0 ∧ [((0 : U64), 3)] ≠ [((0 : U64), 4)] := by decide

end DDC.Props
