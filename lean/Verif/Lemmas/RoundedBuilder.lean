import Verif.Model.RoundedBuilder
import Verif.Lemmas.BuildRows

/-!
# The matrix of the builder, with rounding
-/

namespace DDC.Props

open One Dom LinProb Spec

/-- What `eval_basis` returns at the interpolation points: the B-splines from the number `cell k` on have the values
`b k 0, …, b k p` at the point number `k`. -/
structure Rows (fl : Rat → Rat) (bs : Rounded.Spl) (p nb s N : Nat) (coord : Elem Unit → Res Rat) (X : Nat → Rat)
    (cell : Nat → Nat) (b : Nat → Nat → Rat) : Prop where
  degree : bs.degree = p
  nbasis : bs.nbasis = .ok (BitVec.ofNat 64 nb)
  pos : 0 < nb
  lt : nb < 2 ^ 31
  small : s + N < 2 ^ 31
  coords : ∀ k, k < N → coord (el () (s + k)) = .ok (X k)
  cells : ∀ k, k < N → cell k + p < 2 ^ 31
  basis : ∀ k, k < N → ∀ a : Arr Rat, a.size = p + 1 → ∃ v, bs.evalBasis fl a (X k) = .ok (v, BitVec.ofNat 64 (cell k)) ∧
    v.size = p + 1 ∧ ∀ r, r ≤ p → v.val r = some (b k r)

/-- The writes of the rows. -/
def rowWrites (p N nb : Nat) (off : Int) (cell : Nat → Nat) (b : Nat → Nat → Rat) : List (U64 × U64 × Rat) :=
  (List.range' 0 N).flatMap fun k => (List.range' 0 (p + 1)).flatMap fun r =>
    [(BitVec.ofNat 64 k, BitVec.ofInt 64 ((((cell k + r : Nat) : Int) - off) % (nb : Int)), b k r)]

theorem mem_rowWrites {p N nb : Nat} {off : Int} {cell : Nat → Nat} {b : Nat → Nat → Rat} {w : U64 × U64 × Rat} :
    w ∈ rowWrites p N nb off cell b ↔ ∃ k r, k < N ∧ r ≤ p ∧
      w = (BitVec.ofNat 64 k, BitVec.ofInt 64 ((((cell k + r : Nat) : Int) - off) % (nb : Int)), b k r) := by
  simp only [rowWrites, List.mem_flatMap, List.mem_range'_1, List.mem_singleton, Nat.zero_le, true_and, Nat.zero_add]
  constructor
  · rintro ⟨k, hk, r, hr, e⟩
    exact ⟨k, r, hk, by omega, e⟩
  · rintro ⟨k, r, hk, hr, e⟩
    exact ⟨k, hk, r, by omega, e⟩

/-- The value of the `j`-th unknown at the `i`-th point. -/
def rowEntry (p nb : Nat) (off : Int) (cell : Nat → Nat) (b : Nat → Nat → Rat) (i j : Nat) : Rat :=
  ∑ r ∈ Finset.range (p + 1), if (((cell i + r : Nat) : Int) - off) % (nb : Int) = j then b i r else 0

variable {fl : Rat → Rat} {bs : Rounded.Spl} {p nb s N : Nat} {coord : Elem Unit → Res Rat} {X : Nat → Rat}
  {cell : Nat → Nat} {b : Nat → Nat → Rat}

theorem Rows.build (h : Rows fl bs p nb s N coord X cell b) {off : Int} (h0 : 0 ≤ off) (h1 : off < 2 ^ 31)
    (m : LinProb Rat) : Rounded.buildMatrix fl bs (seg () s (s + N)) coord off m =
      writeAll m (rowWrites p N nb off cell b) := by
  have hs := h.small
  rw [Rounded.buildMatrix, One.front, NUBS.uid1_el, Res.ok_bind, sizeToInt_ofNat (by omega),
    hostForEach1_seg (by omega) (by omega), Nat.add_sub_cancel_left, h.degree]
  refine forLoop_writes₂ (fun a => a.size = p + 1) _ _ (fun k _ hk a m ha => ?_) _ rfl m
  obtain ⟨v, e, hv, hb⟩ := h.basis k (by omega) a ha
  refine ⟨v, hv, ?_⟩
  rw [Rounded.pointRow, h.degree, h.coords k (by omega), Res.ok_bind]
  dsimp only
  rw [e, Res.ok_bind]
  dsimp only
  rw [NUBS.uid1_el, Res.ok_bind]
  congr 1
  refine forLoop_writes _ _ (fun r _ hr m => ?_) m
  have := h.cells k (by omega)
  rw [h.nbasis, Res.ok_bind, column_eq h0 h1 (by omega) h.pos h.lt, Res.ok_bind,
    Arr.rd_ok (by omega) (hb r (by omega)), Res.ok_bind, writeAll_one]
  rw [BitVec.ofInt_natCast]
  congr 1
  rw [BitVec.ofNat_add]
  grind

/-- The columns of a row are distinct. -/
theorem rowEntry_at (hp : p < nb) {off : Int} {i r : Nat} (hr : r ≤ p) {j : Nat}
    (hj : (((cell i + r : Nat) : Int) - off) % (nb : Int) = j) : rowEntry p nb off cell b i j = b i r := by
  rw [rowEntry, Finset.sum_eq_single r]
  · rw [if_pos hj]
  · intro r' hr' hne
    rw [Finset.mem_range] at hr'
    rw [if_neg]
    intro hc
    rw [← hj] at hc
    have := Int.emod_eq_emod_iff_emod_sub_eq_zero.1 hc
    rw [show ((cell i + r' : Nat) : Int) - off - (((cell i + r : Nat) : Int) - off) = (r' : Int) - r by push_cast; ring] at this
    obtain ⟨c, hc⟩ := Int.dvd_of_emod_eq_zero this
    have h3 : -(nb : Int) < (r' : Int) - r := by omega
    have h4 : (r' : Int) - r < (nb : Int) := by omega
    have : c = 0 := by
      rw [hc] at h3 h4
      have a1 : -1 < c := by nlinarith
      have a2 : c < 1 := by nlinarith
      omega
    rw [this] at hc
    omega
  · intro hc
    exact absurd (Finset.mem_range.2 (by omega)) hc

theorem rowEntry_zero {off : Int} {i j : Nat} (h : rowEntry p nb off cell b i j ≠ 0) :
    ∃ r, r ≤ p ∧ (((cell i + r : Nat) : Int) - off) % (nb : Int) = j ∧ b i r ≠ 0 := by
  by_contra hc
  refine h (Finset.sum_eq_zero fun r hr => ?_)
  rw [Finset.mem_range] at hr
  split_ifs with c
  · by_contra hb
    exact hc ⟨r, by omega, c, hb⟩
  · rfl

/-- The value that a position holds after some writes. -/
theorem lastValue_cases {K : Type} [Field K] [LinearOrder K] {q : LinProb K} {k l : Nat} {old : K}
    {ws : List (U64 × U64 × K)} :
    (∃ w ∈ ws, q.Stored w.1.toNat w.2.1.toNat ∧ q.Same (w.1.toNat, w.2.1.toNat) (k, l) ∧
      lastValue q k l old ws = w.2.2) ∨
    (lastValue q k l old ws = old ∧
      ∀ w ∈ ws, ¬(q.Stored w.1.toNat w.2.1.toNat ∧ q.Same (w.1.toNat, w.2.1.toNat) (k, l))) := by
  classical
  rw [lastValue]
  induction ws generalizing old with
  | nil => exact .inr ⟨rfl, fun w hw => by simp at hw⟩
  | cons w ws ih =>
    rw [List.foldl_cons]
    rcases ih (old := if q.Stored w.1.toNat w.2.1.toNat ∧ q.Same (w.1.toNat, w.2.1.toNat) (k, l) then w.2.2 else old) with
      ⟨x, hx, a1, a2, a3⟩ | ⟨a1, a2⟩
    · exact .inl ⟨x, List.mem_cons_of_mem _ hx, a1, a2, a3⟩
    · by_cases c : q.Stored w.1.toNat w.2.1.toNat ∧ q.Same (w.1.toNat, w.2.1.toNat) (k, l)
      · rw [if_pos c] at a1 ⊢
        exact .inl ⟨w, List.mem_cons_self .., c.1, c.2, a1⟩
      · rw [if_neg c] at a1 ⊢
        refine .inr ⟨a1, fun x hx => ?_⟩
        rcases List.mem_cons.1 hx with rfl | hx
        · exact c
        · exact a2 x hx

/-- The matrix that is built: its entries are the values, or zero for a value below `1e-15` that has no place. -/
theorem Rows.matrix (h : Rows fl bs p nb s nb coord X cell b) (hp : p < nb) {off : Int} (h0 : 0 ≤ off)
    (h1 : off < 2 ^ 31) {m : LinProb Rat} (hm : Fresh m nb)
    (hb : ∀ i r j : Nat, i < nb → r ≤ p → (((cell i + r : Nat) : Int) - off) % (nb : Int) = j →
      m.Stored i j ∨ |b i r| < 1 / 10 ^ 15) :
    ∃ m', Rounded.buildMatrix fl bs (seg () s (s + nb)) coord off m = .ok m' ∧ m'.Shaped ∧ m'.size = m.size ∧
      ∀ i j, i < nb → j < nb →
        (∃ k l, k < nb ∧ l < nb ∧ m.Same (k, l) (i, j) ∧ m'.shown i j = rowEntry p nb off cell b k l) ∨
        (m'.shown i j = 0 ∧ (rowEntry p nb off cell b i j = 0 ∨
          (¬ m.Stored i j ∧ |rowEntry p nb off cell b i j| < 1 / 10 ^ 15))) := by
  have hlt := h.lt
  have hcol : ∀ z : Int, (BitVec.ofInt 64 (z % (nb : Int))).toNat = (z % (nb : Int)).toNat ∧
      0 ≤ z % (nb : Int) ∧ z % (nb : Int) < nb := by
    intro z
    have a1 := Int.emod_nonneg z (show (nb : Int) ≠ 0 by omega)
    have a2 := Int.emod_lt_of_pos z (show (0 : Int) < (nb : Int) by omega)
    exact ⟨toNat_ofInt a1 (by omega), a1, a2⟩
  have en : ∀ x, x < 2 ^ 64 → (BitVec.ofNat 64 x).toNat = x := fun x hx => by
    rw [BitVec.toNat_ofNat, Nat.mod_eq_of_lt hx]
  have hw : ∀ w ∈ rowWrites p nb nb off cell b, w.1.toNat < nb ∧ w.2.1.toNat < nb ∧
      w.2.2 = rowEntry p nb off cell b w.1.toNat w.2.1.toNat ∧
      (m.Stored w.1.toNat w.2.1.toNat ∨ |w.2.2| < 1 / 10 ^ 15) := by
    intro w hw
    obtain ⟨k, r, hk, hr, rfl⟩ := mem_rowWrites.1 hw
    obtain ⟨c1, c2, c3⟩ := hcol (((cell k + r : Nat) : Int) - off)
    dsimp only
    rw [en k (by omega), c1]
    exact ⟨hk, by omega, (rowEntry_at hp hr (by omega)).symm, hb k r _ hk hr (by omega)⟩
  obtain ⟨m', e, g1, g2, g3⟩ := C38_history m hm.shaped _ (fun w h' => by
    obtain ⟨v1, v2, -, v4⟩ := hw w h'
    exact ⟨by rw [hm.size]; exact v1, by rw [hm.size]; exact v2, v4⟩)
  refine ⟨m', by rw [h.build h0 h1, e], g1, g2, fun i j hi hj => ?_⟩
  have ei := en i (by omega)
  have ej := en j (by omega)
  obtain ⟨old, e1, e2⟩ := g3 (BitVec.ofNat 64 i) (BitVec.ofNat 64 j) (by rw [ei, hm.size]; exact hi)
    (by rw [ej, hm.size]; exact hj)
  rw [hm.zero _ _ (by rw [ei]; exact hi) (by rw [ej]; exact hj)] at e1
  obtain rfl := Res.ok.inj e1
  rw [LinProb.shown, e2, ei, ej]
  dsimp only
  rcases lastValue_cases (q := m) (k := i) (l := j) (old := 0) (ws := rowWrites p nb nb off cell b) with
    ⟨w, k1, k2, k3, k4⟩ | ⟨k1, k2⟩
  · obtain ⟨v1, v2, v3, -⟩ := hw w k1
    exact .inl ⟨_, _, v1, v2, k3, k4.trans v3⟩
  · refine .inr ⟨k1, ?_⟩
    by_cases hz : rowEntry p nb off cell b i j = 0
    · exact .inl hz
    · obtain ⟨r, hr, hj', -⟩ := rowEntry_zero hz
      have hmem : (BitVec.ofNat 64 i, BitVec.ofInt 64 ((((cell i + r : Nat) : Int) - off) % (nb : Int)), b i r) ∈
          rowWrites p nb nb off cell b := mem_rowWrites.2 ⟨i, r, hi, hr, rfl⟩
      obtain ⟨v1, v2, v3, v4⟩ := hw _ hmem
      have k5 := k2 _ hmem
      obtain ⟨c1, c2, c3⟩ := hcol (((cell i + r : Nat) : Int) - off)
      dsimp only at v1 v2 v3 v4 k5
      rw [en i (by omega), c1, hj', Int.toNat_natCast] at v3 v4 k5
      have k6 : ¬ m.Stored i j := fun hc => k5 ⟨hc, same_refl ..⟩
      exact .inr ⟨k6, by rw [← v3]; exact v4.resolve_left k6⟩

end DDC.Props
