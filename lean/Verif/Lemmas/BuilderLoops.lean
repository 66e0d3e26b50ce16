import Verif.Lemmas.BuildRows
import Verif.Lemmas.Solve

/-!
# The loops of `SplineBuilder::operator()`
-/

namespace DDC.Props

open Builder

set_option linter.unusedSectionVars false

variable {K : Type} [Field K] [LinearOrder K] [IsStrictOrderedRing K]

/-- A parallel loop over columns where each column becomes a function of itself. -/
theorem colLoop_ok {σ : Sched} (hσ : σ.Valid) {f : Nat → Mat K → Res (Mat K)} {R C : Nat}
    (F : Nat → (Nat → K) → Nat → K)
    (hf : ∀ b c, b.rows = R → b.cols = C → c < C → f c b = .ok ⟨R, C, fun r c' =>
      if c' = c then F c (fun r => b.val r c) r else b.val r c'⟩)
    (b : Mat K) (hr : b.rows = R) (hc : b.cols = C) :
    ∃ b', colLoop σ f b = .ok b' ∧ b'.rows = R ∧ b'.cols = C ∧
      ∀ r c, c < C → b'.val r c = F c (fun r => b.val r c) r := by
  obtain ⟨b', e, h1, h2, h3, -⟩ := foldCols (f := fun b j => f j b) (R := R) (C := C)
    (fun c b y => ∀ r, y r = F c (fun r => b.val r c) r)
    (fun c b b' y hb hq r => by rw [hq r]; simp only [hb])
    (fun b c hr hc hcc => ⟨_, hf b c hr hc hcc, rfl, rfl, fun r => by simp, fun r c' h => by simp [h]⟩)
    (σ.cols b.cols) (hσ.nodup _) (fun c h => hc ▸ hσ.mem.1 h) b hr hc
  exact ⟨b', e, h1, h2, fun r c hcc => h3 c (hσ.mem.2 (by omega)) r⟩

/-- A loop that writes consecutive rows of one column. -/
theorem moveLoop {S : Nat → Mat K → Res K} {D : Nat → Nat} {lo n d j : Nat} {b : Mat K} {g : Nat → K}
    (hD : ∀ i, lo ≤ i → i < lo + n → D i = d + i) (hr : d + lo + n ≤ b.rows) (hj : j < b.cols)
    (hS : ∀ i b', lo ≤ i → i < lo + n → b'.rows = b.rows → b'.cols = b.cols →
      (∀ r c, ¬(d + lo ≤ r ∧ r < d + lo + n) → b'.val r c = b.val r c) → S i b' = .ok (g i)) :
    forLoop (fun i b => do
      let v ← S i b
      b.wr (D i) j v) lo n b =
    .ok ⟨b.rows, b.cols, fun r c => if c = j ∧ d + lo ≤ r ∧ r < d + lo + n then g (r - d) else b.val r c⟩ := by
  have key : ∀ k, k ≤ n → forLoop (fun i b => do
      let v ← S i b
      b.wr (D i) j v) lo k b =
    .ok ⟨b.rows, b.cols, fun r c => if c = j ∧ d + lo ≤ r ∧ r < d + lo + k then g (r - d) else b.val r c⟩ := by
    intro k hk
    induction k with
    | zero =>
      have : (fun r c => if c = j ∧ d + lo ≤ r ∧ r < d + lo + 0 then g (r - d) else b.val r c) = b.val := by
        funext r c
        rw [if_neg (by omega)]
      rw [forLoop, this]
    | succ k ih =>
      rw [forLoop_snoc, ih (by omega), Res.ok_bind, hS (lo + k) ⟨b.rows, b.cols, fun r c =>
        if c = j ∧ d + lo ≤ r ∧ r < d + lo + k then g (r - d) else b.val r c⟩ (by omega) (by omega) rfl rfl
        (fun r c h => if_neg (by omega)), Res.ok_bind, hD _ (by omega) (by omega), Mat.wr]
      dsimp only
      rw [if_pos ⟨by omega, hj⟩]
      congr
      funext r c
      by_cases c1 : r = d + (lo + k) ∧ c = j
      · obtain ⟨rfl, rfl⟩ := c1
        rw [if_pos ⟨rfl, rfl⟩, if_pos ⟨rfl, by omega, by omega⟩, Nat.add_sub_cancel_left]
      · rw [if_neg c1]
        by_cases c2 : c = j ∧ d + lo ≤ r ∧ r < d + lo + k
        · rw [if_pos c2, if_pos (by omega)]
        · rw [if_neg c2, if_neg (by omega)]
  exact key n le_rfl

theorem toNat_ofNat_add {a : U64} {i : Nat} (h : a.toNat + i < 2 ^ 64) :
    (a + BitVec.ofNat 64 i).toNat = a.toNat + i := by
  rw [BitVec.toNat_add, BitVec.toNat_ofNat]
  omega

/-- The right-hand side of the closure relations. -/
theorem closureRows_ok {σ : Sched} (hσ : σ.Valid) {c : Closure} {p : Nat} {dx : K} {lo : U64}
    {d : Option (U64 × Mat K)} (hd : checkDerivs c (p % 2) d = .ok ()) {b : Mat K}
    (hv : c = .hermite → ∀ f v, d = some (f, v) → v.rows = p / 2 ∧ v.cols = b.cols)
    (hr : lo.toNat + c.equations p ≤ b.rows) (hs : lo.toNat + c.equations p < 2 ^ 64) :
    ∃ b', closureRows σ c (p % 2) (c.equations p) dx lo d b = .ok b' ∧ b'.rows = b.rows ∧ b'.cols = b.cols ∧
      (∀ r j, j < b.cols → ¬(lo.toNat ≤ r ∧ r < lo.toNat + c.equations p) → b'.val r j = b.val r j) ∧
      (c = .hermite → ∀ f v, d = some (f, v) → ∀ i j, i < p / 2 → j < b.cols →
        b'.val (lo.toNat + i) j = v.val i j * dx ^ (i + p % 2)) ∧
      (c = .homogeneousHermite → ∀ i j, i < p / 2 → j < b.cols → b'.val (lo.toNat + i) j = 0) := by
  cases c with
  | periodic => exact ⟨b, rfl, rfl, rfl, fun _ _ _ _ => rfl, nofun, nofun⟩
  | greville => exact ⟨b, rfl, rfl, rfl, fun _ _ _ _ => rfl, nofun, nofun⟩
  | homogeneousHermite =>
    have he : Closure.homogeneousHermite.equations p = p / 2 := rfl
    refine ⟨_, if_pos ⟨by omega, by omega⟩, rfl, rfl, fun r j _ h => ?_, nofun, fun _ i j hi _ => ?_⟩
    · dsimp only
      rw [if_neg (by omega)]
    · dsimp only
      rw [if_pos (by omega)]
  | hermite =>
    have he : Closure.hermite.equations p = p / 2 := rfl
    match d, hd, hv with
    | some (f, v), hd, hv =>
      obtain ⟨h1, h2⟩ := hv rfl f v rfl
      have hf : f = BitVec.ofNat 64 (p % 2) := of_decide_eq_true (guardAbort_ok hd)
      have hf' : f.toNat = p % 2 := by rw [hf, BitVec.toNat_ofNat]; omega
      obtain ⟨b', e, r1, r2, r3⟩ := colLoop_ok hσ (R := b.rows) (C := b.cols)
        (f := fun j => forLoop (fun i b => do
          let y ← v.rd (i + p % 2 - f.toNat) j
          b.wr (lo + BitVec.ofNat 64 i).toNat j (y * ipow dx (i + p % 2))) 0 (p / 2))
        (fun c y r => if lo.toNat ≤ r ∧ r < lo.toNat + p / 2 then
          v.val (r - lo.toNat) c * dx ^ (r - lo.toNat + p % 2) else y r)
        (fun b1 j e1 e2 hj => by
          have := moveLoop (S := fun i _ => (v.rd (i + p % 2 - f.toNat) j >>= fun y =>
              Res.ok (y * ipow dx (i + p % 2)))) (D := fun i => (lo + BitVec.ofNat 64 i).toNat)
            (lo := 0) (n := p / 2) (d := lo.toNat) (j := j) (b := b1)
            (g := fun i => v.val i j * dx ^ (i + p % 2))
            (fun i _ hi => toNat_ofNat_add (by omega)) (by omega) (by omega)
            (fun i b' _ hi _ _ _ => by
              rw [hf', Nat.add_sub_cancel, Mat.rd, if_pos (by omega), Res.ok_bind, ipow_eq])
          simp only [bind_assoc, Res.ok_bind] at this
          rw [this, e1, e2]
          congr
          funext r c
          by_cases hc : c = j
          · subst hc
            simp
          · simp [hc]) b rfl rfl
      refine ⟨b', ?_, r1, r2, fun r j hj h => ?_, fun _ f' v' e i j hi hj => ?_, nofun⟩
      · rw [closureRows, he, h1, decide_eq_true rfl, Res.guardAbort_true, Res.ok_bind]
        exact e
      · rw [r3 r j hj, if_neg (by omega)]
      · obtain ⟨rfl, rfl⟩ := Prod.mk.inj (Option.some.inj e)
        rw [r3 _ j hj, if_pos (by omega), Nat.add_sub_cancel_left]

/-- Into the memory of the solver. -/
theorem toTr_ok {σ : Sched} (hσ : σ.Valid) {nb : Nat} {off : Nat} {spline tr : Mat K}
    (h1 : nb + off ≤ spline.rows) (h2 : nb ≤ tr.rows) (h3 : tr.cols = spline.cols) (hs : nb + off < 2 ^ 63) :
    ∃ b', toTr σ (BitVec.ofNat 64 nb) off spline tr = .ok b' ∧ b'.rows = tr.rows ∧ b'.cols = tr.cols ∧
      ∀ r c, c < tr.cols → r < nb → b'.val r c = spline.val (r + off) c := by
  have en : (BitVec.ofNat 64 nb).toNat = nb := by rw [BitVec.toNat_ofNat]; omega
  obtain ⟨b', e, r1, r2, r3⟩ := colLoop_ok hσ (R := tr.rows) (C := tr.cols)
    (f := fun j => forLoop (fun i tr => do
      let v ← spline.rd (BitVec.ofNat 64 i + BitVec.ofInt 64 off).toNat j
      tr.wr i j v) 0 nb)
    (fun c y r => if r < nb then spline.val (r + off) c else y r)
    (fun b1 j e1 e2 hj => by
      rw [moveLoop (S := fun i _ => spline.rd (BitVec.ofNat 64 i + BitVec.ofInt 64 off).toNat j)
        (D := fun i => i) (d := 0) (g := fun i => spline.val (i + off) j) (fun i _ _ => (Nat.zero_add i).symm)
        (by omega) (by omega)
        (fun i b' _ hi _ _ _ => by
          rw [BitVec.ofInt_natCast, ← BitVec.ofNat_add, BitVec.toNat_ofNat, Nat.mod_eq_of_lt (by omega), Mat.rd,
            if_pos (by omega)]), e1, e2]
      congr
      funext r c
      by_cases hc : c = j
      · subst hc
        simp
      · simp [hc]) tr rfl rfl
  refine ⟨b', ?_, r1, r2, fun r c hc hr => by rw [r3 r c hc, if_pos hr]⟩
  rw [toTr, en]
  exact e

/-- Back from the memory of the solver. -/
theorem fromTr_ok {σ : Sched} (hσ : σ.Valid) {nb : Nat} {off : Nat} {spline tr : Mat K}
    (h1 : nb + off ≤ spline.rows) (h2 : nb ≤ tr.rows) (h3 : tr.cols = spline.cols) (hs : nb + off < 2 ^ 63) :
    ∃ b', fromTr σ (BitVec.ofNat 64 nb) off tr spline = .ok b' ∧ b'.rows = spline.rows ∧ b'.cols = spline.cols ∧
      ∀ r c, c < spline.cols → b'.val r c = if off ≤ r ∧ r < off + nb then tr.val (r - off) c else spline.val r c := by
  have en : (BitVec.ofNat 64 nb).toNat = nb := by rw [BitVec.toNat_ofNat]; omega
  obtain ⟨b', e, r1, r2, r3⟩ := colLoop_ok hσ (R := spline.rows) (C := spline.cols)
    (f := fun j => forLoop (fun i b => do
      let v ← tr.rd i j
      b.wr (BitVec.ofNat 64 i + BitVec.ofInt 64 off).toNat j v) 0 nb)
    (fun c y r => if off ≤ r ∧ r < off + nb then tr.val (r - off) c else y r)
    (fun b1 j e1 e2 hj => by
      rw [moveLoop (S := fun i _ => tr.rd i j)
        (D := fun i => (BitVec.ofNat 64 i + BitVec.ofInt 64 off).toNat) (d := off) (g := fun i => tr.val i j)
        (fun i _ _ => by
          rw [BitVec.ofInt_natCast, ← BitVec.ofNat_add, BitVec.toNat_ofNat, Nat.mod_eq_of_lt (by omega), Nat.add_comm])
        (by omega) (by omega) (fun i b' _ hi _ _ _ => by rw [Mat.rd, if_pos (by omega)]), e1, e2]
      congr
      funext r c
      by_cases hc : c = j
      · subst hc
        simp
      · simp [hc]) spline rfl rfl
  exact ⟨b', by rw [fromTr, en]; exact e, r1, r2, fun r c hc => r3 r c hc⟩

/-- Copies of the periodic coefficients, upwards. -/
theorem copyUp_ok {nb lo cnt j : Nat} {b : Mat K} (h1 : lo + cnt ≤ nb) (h2 : nb + lo + cnt ≤ b.rows)
    (hj : j < b.cols) (hs : nb + nb < 2 ^ 63) :
    copyCoefs (fun i => (BitVec.ofNat 64 nb + BitVec.ofNat 64 i).toNat) (fun i => i) lo cnt j b =
      .ok ⟨b.rows, b.cols, fun r c =>
        if c = j ∧ nb + lo ≤ r ∧ r < nb + lo + cnt then b.val (r - nb) j else b.val r c⟩ := by
  rw [copyCoefs]
  exact moveLoop (S := fun i b => b.rd i j) (d := nb)
    (D := fun i => (BitVec.ofNat 64 nb + BitVec.ofNat 64 i).toNat) (g := fun i => b.val i j)
    (fun i _ _ => by rw [← BitVec.ofNat_add, BitVec.toNat_ofNat, Nat.mod_eq_of_lt (by omega)]) (by omega) hj
    (fun i b' _ hi e1 e2 e3 => by rw [Mat.rd, if_pos (by omega), e3 _ _ (by omega)])

/-- Copies of the periodic coefficients, downwards. -/
theorem copyDown_ok {nb cnt j : Nat} {b : Mat K} (h1 : cnt ≤ nb) (h2 : nb + cnt ≤ b.rows)
    (hj : j < b.cols) (hs : nb + nb < 2 ^ 63) :
    copyCoefs (fun i => i) (fun i => (BitVec.ofNat 64 nb + BitVec.ofNat 64 i).toNat) 0 cnt j b =
      .ok ⟨b.rows, b.cols, fun r c => if c = j ∧ r < cnt then b.val (nb + r) j else b.val r c⟩ := by
  rw [copyCoefs, moveLoop (S := fun i b => b.rd (BitVec.ofNat 64 nb + BitVec.ofNat 64 i).toNat j) (d := 0)
    (D := fun i => i) (g := fun i => b.val (nb + i) j)
    (fun i _ _ => (Nat.zero_add i).symm) (by omega) hj
    (fun i b' _ hi e1 e2 e3 => by
      rw [← BitVec.ofNat_add, BitVec.toNat_ofNat, Nat.mod_eq_of_lt (by omega), Mat.rd, if_pos (by omega),
        e3 _ _ (by omega)])]
  congr
  funext r c
  simp

/-- The duplication of the periodic coefficients: every coefficient outside of the window
`off … off + nb - 1` becomes the one that is `nb` rows away. -/
theorem duplicate_ok {σ : Sched} (hσ : σ.Valid) {p nb : Nat} {off : Nat} {b : Mat K} (hp : p ≤ nb) (ho : off ≤ p)
    (h1 : b.rows = nb + p) (hs : nb + nb < 2 ^ 63) :
    ∃ b', duplicate σ p (BitVec.ofNat 64 nb) off b = .ok b' ∧ b'.rows = b.rows ∧ b'.cols = b.cols ∧
      ∀ r c, c < b.cols → r < nb + p →
        b'.val r c = if r < off then b.val (r + nb) c else if r < off + nb then b.val r c else b.val (r - nb) c := by
  obtain ⟨b', e, r1, r2, r3⟩ := colLoop_ok hσ (R := b.rows) (C := b.cols)
    (f := fun j b => do
      let b ←
        if (off : Int) ≠ 0 then do
          let b ← copyCoefs (fun i => i) (fun i => (BitVec.ofNat 64 nb + BitVec.ofNat 64 i).toNat) 0 (off : Int).toNat j b
          let lo := (BitVec.ofInt 64 off).toNat
          copyCoefs (fun i => (BitVec.ofNat 64 nb + BitVec.ofNat 64 i).toNat) (fun i => i) lo (p - lo) j b
        else .ok b
      copyCoefs (fun i => (BitVec.ofNat 64 nb + BitVec.ofNat 64 i).toNat) (fun i => i) 0 p j b)
    (fun c y r => if r < off then y (nb + r) else if r < off + nb ∨ nb + p ≤ r then y r else y (r - nb))
    (fun b1 j e1 e2 hj => by
      have eo : (BitVec.ofInt 64 (off : Int)).toNat = off := by
        rw [BitVec.ofInt_natCast, BitVec.toNat_ofNat, Nat.mod_eq_of_lt (by omega)]
      split_ifs with c
      · dsimp only
        rw [eo, Int.toNat_natCast, copyDown_ok (by omega) (by omega) (by omega) hs, Res.ok_bind,
          copyUp_ok (by omega) (by dsimp only; omega) (by dsimp only; omega) hs, Res.ok_bind,
          copyUp_ok (by omega) (by dsimp only; omega) (by dsimp only; omega) hs]
        dsimp only
        rw [e1, e2]
        congr
        funext r c'
        by_cases hc : c' = j
        · subst hc
          grind
        · simp [hc]
      · have c0 : off = 0 := by omega
        subst c0
        rw [Res.ok_bind]
        dsimp only
        rw [copyUp_ok (by omega) (by omega) (by omega) hs, e1, e2]
        congr
        funext r c'
        by_cases hc : c' = j
        · subst hc
          grind
        · simp [hc]) b rfl rfl
  refine ⟨b', by rw [duplicate]; exact e, r1, r2, fun r c hc hr => ?_⟩
  rw [r3 r c hc]
  split_ifs <;> first | rfl | omega | rw [Nat.add_comm]

end DDC.Props
