import Verif.Lemmas.BSpl
import Verif.Spec.Builder
import Verif.Props.C54

/-!
# The matrix of the builder
-/

namespace DDC.Props

open One Dom LinProb

set_option linter.unusedSectionVars false

variable {K : Type} [Field K] [LinearOrder K] [IsStrictOrderedRing K]

/-! ## Sequences of writes -/

theorem same_refl (p : LinProb K) (x : Nat × Nat) : p.Same x x := by
  cases p <;> simp [LinProb.Same]

/-- A write that succeeds was legal, and the kind of storage is the same. -/
theorem set_ok_legal {p : LinProb K} (h : p.Shaped) {i j : U64} {v : K} {p' : LinProb K}
    (e : p.set i j v = .ok p') : Legal p (i, j, v) ∧ p'.Shaped ∧ p'.size = p.size ∧ p'.Stored = p.Stored ∧
      p'.Same = p.Same := by
  by_cases hij : p.size.toNat ≤ i.toNat ∨ p.size.toNat ≤ j.toNat
  · rw [(C38_out_of_range p h i j hij).2 v] at e; cases e
  · have hi : i.toNat < p.size.toNat := by omega
    have hj : j.toNat < p.size.toNat := by omega
    by_cases hs : p.Stored i.toNat j.toNat
    · obtain ⟨q, e', w⟩ := set_stored p h hi hj hs v
      obtain rfl := Res.ok.inj (e'.symm.trans e)
      exact ⟨⟨hi, hj, Or.inl hs⟩, w.shaped, w.size, w.stored, w.same⟩
    · rw [set_outside p h hi hj hs v] at e
      split_ifs at e with hv
      obtain rfl := Res.ok.inj e
      exact ⟨⟨hi, hj, Or.inr hv⟩, h, rfl, rfl, rfl⟩

theorem writeAll_legal {ws : List (U64 × U64 × K)} {p p' : LinProb K} (h : p.Shaped)
    (e : writeAll p ws = .ok p') : (∀ w ∈ ws, Legal p w) ∧ p'.Shaped ∧ p'.size = p.size ∧ p'.Same = p.Same := by
  induction ws generalizing p with
  | nil =>
    obtain rfl := Res.ok.inj e
    exact ⟨fun w hw => by simp at hw, h, rfl, rfl⟩
  | cons w ws ih =>
    rw [writeAll, List.foldlM_cons] at e
    obtain ⟨q, e1, e2⟩ := Res.bind_eq_ok.1 e
    obtain ⟨h1, h2, h3, h4, h5⟩ := set_ok_legal h e1
    obtain ⟨k1, k2, k3, k4⟩ := ih h2 e2
    refine ⟨fun x hx => ?_, k2, k3.trans h3, k4.trans h5⟩
    rcases List.mem_cons.1 hx with rfl | hx
    · exact h1
    · have := k1 x hx
      rw [Legal, h3, h4] at this
      exact this

theorem lastValue_eq {p : LinProb K} {k l : Nat} {old g : K} {ws : List (U64 × U64 × K)}
    (h : ∀ w ∈ ws, p.Stored w.1.toNat w.2.1.toNat → p.Same (w.1.toNat, w.2.1.toNat) (k, l) → w.2.2 = g)
    (h' : old = g ∨ ∃ w ∈ ws, p.Stored w.1.toNat w.2.1.toNat ∧ p.Same (w.1.toNat, w.2.1.toNat) (k, l)) :
    lastValue p k l old ws = g := by
  classical
  rw [lastValue]
  induction ws generalizing old with
  | nil => rcases h' with h' | ⟨w, hw, -⟩
           · exact h'
           · simp at hw
  | cons w ws ih =>
    rw [List.foldl_cons]
    refine ih (fun x hx => h x (List.mem_cons_of_mem _ hx)) ?_
    by_cases hw : p.Stored w.1.toNat w.2.1.toNat ∧ p.Same (w.1.toNat, w.2.1.toNat) (k, l)
    · rw [if_pos hw]
      exact Or.inl (h w (List.mem_cons_self ..) hw.1 hw.2)
    · rw [if_neg hw]
      rcases h' with h' | ⟨x, hx, h1⟩
      · exact Or.inl h'
      · rcases List.mem_cons.1 hx with rfl | hx
        · exact absurd h1 hw
        · exact Or.inr ⟨x, hx, h1⟩

/-- The matrix that results from writing the entries of `G` into a new one. -/
theorem matrix_of_writes {m m' : LinProb K} {nb : Nat} (hm : Fresh m nb) {ws : List (U64 × U64 × K)}
    (e : writeAll m ws = .ok m') {G : Nat → Nat → K}
    (hval : ∀ w ∈ ws, w.2.2 = G w.1.toNat w.2.1.toNat)
    (hcov : ∀ i j, i < nb → j < nb → G i j ≠ 0 → ∃ w ∈ ws, w.1.toNat = i ∧ w.2.1.toNat = j)
    (hsame : ∀ i j k l : Nat, i < nb → j < nb → k < nb → l < nb → m.Same (i, j) (k, l) → G i j = G k l)
    (htiny : ∀ i j, i < nb → j < nb → |G i j| < 1 / 10 ^ 15 → G i j = 0 ∨ m.Stored i j) :
    m'.Shaped ∧ m'.size = m.size ∧ m'.Same = m.Same ∧
      ∀ i j, i < nb → j < nb → m'.shown i j = G i j := by
  obtain ⟨h1, h2, h3, h4⟩ := writeAll_legal hm.shaped e
  refine ⟨h2, h3, h4, fun i j hi hj => ?_⟩
  obtain ⟨q, eq, -, -, hq⟩ := C38_history m hm.shaped ws h1
  obtain rfl := Res.ok.inj (eq.symm.trans e)
  have hn := hm.shaped.small
  have hsz := hm.size
  have ei : (BitVec.ofNat 64 i).toNat = i := by rw [BitVec.toNat_ofNat, Nat.mod_eq_of_lt (by omega)]
  have ej : (BitVec.ofNat 64 j).toNat = j := by rw [BitVec.toNat_ofNat, Nat.mod_eq_of_lt (by omega)]
  obtain ⟨old, e1, e2⟩ := hq (BitVec.ofNat 64 i) (BitVec.ofNat 64 j) (by rw [ei, hm.size]; exact hi)
    (by rw [ej, hm.size]; exact hj)
  rw [hm.zero _ _ (by rw [ei]; exact hi) (by rw [ej]; exact hj)] at e1
  obtain rfl := Res.ok.inj e1
  rw [LinProb.shown, e2, ei, ej]
  refine lastValue_eq (fun w hw _ hs => by
    rw [hval w hw]
    exact hsame _ _ _ _ (hsz ▸ (h1 w hw).1) (hsz ▸ (h1 w hw).2.1) hi hj hs) ?_
  by_cases hg : G i j = 0
  · exact Or.inl hg.symm
  · obtain ⟨w, hw, rfl, rfl⟩ := hcov i j hi hj hg
    refine Or.inr ⟨w, hw, ?_, same_refl ..⟩
    rcases (h1 w hw).2.2 with hs | hs
    · exact hs
    · rw [hval w hw] at hs
      exact (htiny _ _ hi hj hs).resolve_left hg

theorem writeAll_append (p : LinProb K) (a b : List (U64 × U64 × K)) :
    writeAll p (a ++ b) = (writeAll p a >>= fun q => writeAll q b) := by
  rw [writeAll, List.foldlM_append]; rfl

theorem writeAll_one (p : LinProb K) (w : U64 × U64 × K) : writeAll p [w] = p.set w.1 w.2.1 w.2.2 := by
  simp only [writeAll, List.foldlM_cons, List.foldlM_nil]
  cases p.set w.1 w.2.1 w.2.2 <;> rfl

theorem forLoop_writes {f : Nat → LinProb K → Res (LinProb K)} {W : Nat → List (U64 × U64 × K)} (n lo : Nat)
    (h : ∀ i, lo ≤ i → i < lo + n → ∀ m, f i m = writeAll m (W i)) (m : LinProb K) :
    forLoop f lo n m = writeAll m ((List.range' lo n).flatMap W) := by
  induction n generalizing lo m with
  | zero => rfl
  | succ n ih =>
    rw [forLoop, List.range'_succ, List.flatMap_cons, writeAll_append, h lo (le_refl _) (by omega)]
    congr 1
    funext q
    exact ih (lo + 1) (fun i h1 h2 => h i (by omega) (by omega)) q

/-- The same for a state with a component that does not matter in the end. -/
theorem forLoop_writes₂ {σ : Type} {f : Nat → σ × LinProb K → Res (σ × LinProb K)} (P : σ → Prop)
    {W : Nat → List (U64 × U64 × K)} (n lo : Nat)
    (h : ∀ i, lo ≤ i → i < lo + n → ∀ a m, P a →
      ∃ b, P b ∧ f i (a, m) = (writeAll m (W i) >>= fun m => .ok (b, m))) (a : σ) (ha : P a) (m : LinProb K) :
    (forLoop f lo n (a, m) >>= fun s => Res.ok s.2) = writeAll m ((List.range' lo n).flatMap W) := by
  induction n generalizing lo m a with
  | zero => rfl
  | succ n ih =>
    obtain ⟨b, hb, e⟩ := h lo (le_refl _) (by omega) a m ha
    rw [forLoop, List.range'_succ, List.flatMap_cons, writeAll_append, e]
    simp only [bind_assoc, Res.ok_bind]
    congr 1
    funext q
    exact ih (lo + 1) (fun i h1 h2 => h i (by omega) (by omega)) b hb q

/-! ## Arithmetic on `int` -/

theorem sizeToInt_ofInt {z : Int} (h1 : -2 ^ 31 ≤ z) (h2 : z < 2 ^ 31) : UBS.sizeToInt (BitVec.ofInt 64 z) = z := by
  rw [UBS.sizeToInt, Periodic.toInt32, BitVec.toInt_setWidth, BitVec.toNat_ofInt, Int.bmod_def]
  omega

theorem modulo_pos (x : Int) {y : Int} (h : 0 < y) : modulo x y = .ok (x % y) := by
  rw [modulo, if_neg (by omega), Int.fdiv_eq_ediv_of_nonneg _ h.le, Int.emod_def]

theorem ipow_eq (a : K) (i : Nat) : ipow a i = a ^ i := by
  induction i with
  | zero => rw [ipow, pow_zero]
  | succ i ih => rw [ipow, ih, pow_succ]

/-- The column of a coefficient. -/
theorem column_eq {m r : Nat} {off : Int} {nb : Nat} (h0 : 0 ≤ off) (h1 : off < 2 ^ 31) (h2 : m + r < 2 ^ 31)
    (h3 : 0 < nb) (h4 : nb < 2 ^ 31) :
    modulo (UBS.sizeToInt (BitVec.ofNat 64 m - BitVec.ofInt 64 off + BitVec.ofNat 64 r))
      (UBS.sizeToInt (BitVec.ofNat 64 nb)) = .ok ((((m + r : Nat) : Int) - off) % (nb : Int)) := by
  have e : BitVec.ofNat 64 m - BitVec.ofInt 64 off + BitVec.ofNat 64 r =
      BitVec.ofInt 64 (((m + r : Nat) : Int) - off) := by
    apply BitVec.eq_of_toNat_eq
    simp only [BitVec.toNat_add, BitVec.toNat_sub, BitVec.toNat_ofNat, BitVec.toNat_ofInt]
    omega
  rw [e, sizeToInt_ofInt (by omega) (by omega), sizeToInt_ofNat h4, modulo_pos _ (by omega)]

/-! ## The factory, when it succeeds -/

theorem makeBand_size {n kl ku : Int} {pds : Bool} {q : LinProb K} (e : makeBand n kl ku pds = .ok q) :
    q.size = BitVec.ofInt 64 n := by
  rw [makeBand] at e
  split_ifs at e with c1 c2
  · obtain rfl := Res.ok.inj e; rfl
  · rw [mkPdsBand] at e
    obtain ⟨-, -, e⟩ := Res.bind_eq_ok.1 e
    obtain rfl := Res.ok.inj e; rfl
  · obtain ⟨a, -, e⟩ := Res.bind_eq_ok.1 e
    obtain ⟨b, -, e⟩ := Res.bind_eq_ok.1 e
    obtain ⟨c, -, e⟩ := Res.bind_eq_ok.1 e
    split_ifs at e with c3
    · obtain rfl := Res.ok.inj e; rfl
    · rw [mkBand] at e
      obtain ⟨-, -, e⟩ := Res.bind_eq_ok.1 e
      obtain ⟨-, -, e⟩ := Res.bind_eq_ok.1 e
      obtain rfl := Res.ok.inj e; rfl

theorem guardAbort_ok {b : Bool} {x : Unit} (h : Res.guardAbort b = .ok x) : b = true := by
  cases b
  · cases h
  · rfl

/-- When the factory returns a block matrix, it is the one of `C54_blocks`. -/
theorem makeBlocks_ok {n kl ku bottom top : Int} {pds : Bool} (hn0 : 0 ≤ n) (hn : n < 2 ^ 31) (hkl : 0 ≤ kl)
    (hku : 0 ≤ ku) (hbot : 0 ≤ bottom) (htop : 0 ≤ top) (hb : 2 * kl + ku + 1 < 2 ^ 31) {p : LinProb K}
    (e : makeBlocks n kl ku pds bottom top = .ok p) :
    Fresh p n.toNat ∧ ∀ x y, p.Same x y → x = y ∨ (pds = true ∧ x = y.swap ∧ top ≤ x.1 ∧ (x.1 : Int) < n - bottom ∧
      top ≤ x.2 ∧ (x.2 : Int) < n - bottom) := by
  have e0 := e
  rw [makeBlocks] at e
  obtain ⟨m1, e1, e⟩ := Res.bind_eq_ok.1 e
  obtain ⟨m2, e2, e⟩ := Res.bind_eq_ok.1 e
  obtain ⟨q, e3, e⟩ := Res.bind_eq_ok.1 e
  have hm1 : m1 = n - top ∧ -2 ^ 31 ≤ m1 := by
    rw [intRes] at e1; split_ifs at e1 with c
    obtain rfl := Res.ok.inj e1; exact ⟨rfl, c.1⟩
  have hm2 : m2 = m1 - bottom ∧ -2 ^ 31 ≤ m2 := by
    rw [intRes] at e2; split_ifs at e2 with c
    obtain rfl := Res.ok.inj e2; exact ⟨rfl, c.1⟩
  have hq := makeBand_size e3
  have hle : q.size ≤ BitVec.ofInt 64 n := by
    split_ifs at e with c
    · rw [mkBlocks2] at e
      obtain ⟨u, e, -⟩ := Res.bind_eq_ok.1 e
      exact of_decide_eq_true (guardAbort_ok e)
    · rw [mkBlocks3] at e
      obtain ⟨u, e, -⟩ := Res.bind_eq_ok.1 e
      exact of_decide_eq_true (guardAbort_ok e)
  have h0 : 0 ≤ m2 := by
    by_contra hc
    rw [hq, BitVec.le_def, BitVec.toNat_ofInt, BitVec.toNat_ofInt] at hle
    omega
  have hp : pds = true → kl = ku → kl ≠ 1 → kl < n - top - bottom := by
    intro h1 h2 h3
    rw [makeBand, if_neg (by simp [h3]), if_pos ⟨h2, h1⟩, mkPdsBand] at e3
    obtain ⟨u, e3, -⟩ := Res.bind_eq_ok.1 e3
    have := of_decide_eq_true (guardAbort_ok e3)
    rw [BitVec.le_def, toNat_add_lt, toNat_one, toNat_ofInt hkl (by omega), toNat_ofInt h0 (by omega)] at this
    · omega
    · rw [toNat_one, toNat_ofInt hkl (by omega)]; omega
  obtain ⟨p', e', f, -, hs⟩ := C54_blocks (K := K) n kl ku bottom top pds hn hkl hku hbot htop (by omega) hb hp
  obtain rfl := Res.ok.inj (e'.symm.trans e0)
  refine ⟨f, fun x y h => ?_⟩
  rcases hs x y h with h | ⟨h1, -, h2⟩
  · exact .inl h
  · exact .inr ⟨h1, h2⟩

/-- Only values on both sides of the diagonal are shared. -/
theorem makeBlocks_swap {n kl ku bottom top : Int} {pds : Bool} (hn0 : 0 ≤ n) (hn : n < 2 ^ 31) (hkl : 0 ≤ kl)
    (hku : 0 ≤ ku) (hbot : 0 ≤ bottom) (htop : 0 ≤ top) (hb : 2 * kl + ku + 1 < 2 ^ 31) {p : LinProb K}
    (e : makeBlocks n kl ku pds bottom top = .ok p) :
    Fresh p n.toNat ∧ ∀ x y, p.Same x y → x = y ∨ (pds = true ∧ x = y.swap) := by
  obtain ⟨h1, h2⟩ := makeBlocks_ok hn0 hn hkl hku hbot htop hb e
  exact ⟨h1, fun x y h => (h2 x y h).imp_right fun h => ⟨h.1, h.2.1⟩⟩

theorem makePeriodic_ok {n kl ku : Int} {pds : Bool} (hn0 : 0 ≤ n) (hn : n < 2 ^ 31) (hkl : 0 ≤ kl)
    (hku : 0 ≤ ku) (hb : 2 * kl + ku + 1 < 2 ^ 31) {p : LinProb K} (e : makePeriodic n kl ku pds = .ok p) :
    Fresh p n.toNat ∧ ∀ x y, p.Same x y → x = y ∨ (pds = true ∧ x = y.swap) := by
  have en := toNat_ofInt (n := n) (by omega) (by omega)
  rw [makePeriodic] at e
  obtain ⟨-, -, e⟩ := Res.bind_eq_ok.1 e
  obtain ⟨-, -, e⟩ := Res.bind_eq_ok.1 e
  dsimp only at e
  obtain ⟨tp, -, e⟩ := Res.bind_eq_ok.1 e
  obtain ⟨d, -, e⟩ := Res.bind_eq_ok.1 e
  split_ifs at e with c1 c2
  · have F := C38_fresh (K := K) (BitVec.ofInt 64 n) (by rw [en]; omega)
    rw [en] at F
    obtain rfl := Res.ok.inj e
    exact ⟨F.1, fun x y h => .inl h⟩
  · exact makeBlocks_swap hn0 hn hkl hku hku le_rfl hb e
  · exact makeBlocks_swap hn0 hn hkl hku hkl le_rfl hb e

end DDC.Props
