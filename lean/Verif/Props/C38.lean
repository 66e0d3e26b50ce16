import Verif.Lemmas.Linear
import Mathlib.Tactic.NormNum

/-!
# C38: packed matrix storages represent the matrix that was written

For the dense, band, symmetric band, symmetric tridiagonal and block storages, nested in any way:
* `C38_fresh`: all entries of a new matrix are zero;
* `C38_write`: after a write in a stored position, that position and the ones that share its value read
  the value, all others are unchanged;
* `C38_write_outside`: a write out of the stored positions changes nothing if the value is negligible,
  stops the program otherwise;
* `C38_read_outside`: positions that are not stored read zero;
* `C38_history`: after any sequence of writes;
* `C38_out_of_range`: indices out of the matrix stop the program.
All these outcomes are `ok` or `abort`: no access leaves the allocated storage.
* `C38_lapack`: the external solvers read the same matrix from the storage.
-/

set_option linter.unusedSectionVars false

namespace DDC.Props

open LinProb

variable {K : Type} [Field K] [LinearOrder K]

/-- The writes that leave nothing out: in range, and negligible out of the stored positions. -/
def Legal (p : LinProb K) (w : U64 × U64 × K) : Prop :=
  w.1.toNat < p.size.toNat ∧ w.2.1.toNat < p.size.toNat ∧
    (p.Stored w.1.toNat w.2.1.toNat ∨ |w.2.2| < 1 / 10 ^ 15)

theorem pos3_center {top nq i : Nat} : pos3 top nq i < nq ↔ top ≤ i ∧ i < top + nq := by
  rw [pos3]; split_ifs <;> omega

theorem pos3_center_val {top nq i : Nat} (h : top ≤ i ∧ i < top + nq) : pos3 top nq i = i - top := by
  rw [pos3, if_neg (by omega), if_pos h.2]

theorem pos3_inj {top nq i k : Nat} : pos3 top nq i = pos3 top nq k ↔ i = k := by
  simp only [pos3]; split_ifs <;> omega

/-- A write in a stored position. -/
theorem set_stored (p : LinProb K) (h : p.Shaped) {i j : U64} (hi : i.toNat < p.size.toNat)
    (hj : j.toNat < p.size.toNat) (hst : p.Stored i.toNat j.toNat) (v : K) :
    ∃ p', p.set i j v = .ok p' ∧ Writes p p' i.toNat j.toNat v := by
  induction p generalizing i j with
  | dense n a =>
    refine ⟨.dense n (a.set i.toNat j.toNat v), ?_, ⟨h, rfl, rfl, rfl, ?_, ?_⟩⟩
    · rw [LinProb.set, denseSet_ok h.2.1 h.2.2 hi hj, Res.ok_bind]
    · rintro k l - - hs
      obtain ⟨rfl, rfl⟩ := Prod.mk.inj hs
      simp [entry, lapackDense, Mat.set]
    · rintro k l - - hs
      have : ¬(k = i.toNat ∧ l = j.toNat) := fun e => hs (by rw [e.1, e.2]; rfl)
      simp [entry, lapackDense, Mat.set, this]
  | band n kl ku q =>
    refine ⟨.band n kl ku (q.set (kl.toNat + ku.toNat + i.toNat - j.toNat) j.toNat v), ?_,
      ⟨h, rfl, rfl, rfl, ?_, ?_⟩⟩
    · rw [LinProb.set, bandSet_in h.1 h.2.1 h.2.2.1 h.2.2.2.1 h.2.2.2.2 hi hj hst, Res.ok_bind]
    · rintro k l - - hs
      obtain ⟨rfl, rfl⟩ := Prod.mk.inj hs
      simp only [Stored] at hst
      simp [entry, lapackBand, Mat.set, hst]
    · rintro k l - - hs
      have h' : ¬(k = i.toNat ∧ l = j.toNat) := fun e => hs (by rw [e.1, e.2]; rfl)
      simp only [Stored] at hst
      simp only [entry, lapackBand, Mat.set]
      split_ifs <;> first | rfl | omega
  | pdsBand n ext q =>
    simp only [Stored] at hst
    have he := h.2.1
    refine ⟨.pdsBand n ext (q.set (max i.toNat j.toNat - min i.toNat j.toNat) (min i.toNat j.toNat) v), ?_,
      ⟨h, rfl, rfl, rfl, ?_, ?_⟩⟩
    · rw [LinProb.set, symSet_in h.2.2.1 h.2.2.2 hi hj hst, Res.ok_bind]
    · rintro k l - - hs
      rw [entry, lapackSymBand_set (by omega), if_pos]
      rcases hs with hs | hs <;> obtain ⟨rfl, rfl⟩ := Prod.mk.inj hs <;> simp
    · rintro k l - - hs
      rw [entry, lapackSymBand_set (by omega), if_neg, entry]
      rintro (⟨rfl, rfl⟩ | ⟨rfl, rfl⟩)
      · exact hs (.inl rfl)
      · exact hs (.inr rfl)
  | pdsTridiag n q =>
    simp only [Stored] at hst
    refine ⟨.pdsTridiag n (q.set (max i.toNat j.toNat - min i.toNat j.toNat) (min i.toNat j.toNat) v), ?_,
      ⟨h, rfl, rfl, rfl, ?_, ?_⟩⟩
    · rw [LinProb.set, symSet_in (ext := 2) h.2.1 h.2.2 hi hj (by rw [toNat_two]; omega), Res.ok_bind]
    · rintro k l - - hs
      rw [entry, lapackTridiag_eq, lapackSymBand_set (by omega), if_pos]
      rcases hs with hs | hs <;> obtain ⟨rfl, rfl⟩ := Prod.mk.inj hs <;> simp
    · rintro k l - - hs
      rw [entry, lapackTridiag_eq, lapackSymBand_set (by omega), if_neg, entry, lapackTridiag_eq]
      rintro (⟨rfl, rfl⟩ | ⟨rfl, rfl⟩)
      · exact hs (.inl rfl)
      · exact hs (.inr rfl)
  | blocks2 n tl tr bl brn br ih =>
    obtain ⟨hn, ht, hs, h1, h2, h3, h4, h5, h6⟩ := h
    obtain ⟨tl', tr', bl', br', e, g1, g2, g3, g4, g5, g6, g7, g8, g9, g10, g11, g12⟩ :=
      set2_ok (mk := fun tl tr bl br => blocks2 n tl tr bl brn br) (v := v) ht hs h1 h2 h3 h4 h5 h6 hi hj
        (fun a b => ih ht a b (hst a b))
    refine ⟨_, e, ?_, rfl, ?_, ?_, ?_, ?_⟩
    · simp only [Shaped, g2]
      exact ⟨hn, g1, hs, g5, g6, g7, g8, g9, g10⟩
    · funext i j; simp only [Stored, g2, g3]
    · funext i j; simp only [Same, g2, g4]
    · intro k l hk hl hsm
      simp only [entry, g2]
      refine g11 k l hk hl ?_
      rcases hsm with hsm | hsm
      · exact .inl hsm.symm
      · exact .inr hsm
    · intro k l hk hl hsm
      simp only [entry, g2]
      refine g12 k l hk hl fun hc => hsm ?_
      rcases hc with hc | hc
      · exact .inl hc.symm
      · exact .inr hc
  | blocks3 n top tl tr bl brn br ih =>
    obtain ⟨hn, ht, hs, h1, h2, h3, h4, h5, h6, h7⟩ := h
    have ai := adjust_ok (top := top) (nq := tl.size) (n := n) (by omega) hn hi
    have aj := adjust_ok (top := top) (nq := tl.size) (n := n) (by omega) hn hj
    obtain ⟨tl', tr', bl', br', e, g1, g2, g3, g4, g5, g6, g7, g8, g9, g10, g11, g12⟩ :=
      set2_ok (mk := fun tl tr bl br => blocks3 n top tl tr bl brn br) (v := v) ht hs h1 h2 h3 h4 h5 h6
        (i := adjust top tl.size i) (j := adjust top tl.size j) (by rw [ai.1]; exact ai.2)
        (by rw [aj.1]; exact aj.2)
        (fun a b => by
          rw [ai.1] at a; rw [aj.1] at b
          refine ih ht (by rw [ai.1]; exact a) (by rw [aj.1]; exact b) ?_
          have a' := pos3_center.1 a
          have b' := pos3_center.1 b
          rw [ai.1, aj.1, pos3_center_val a', pos3_center_val b']
          exact hst a'.1 a'.2 b'.1 b'.2)
    rw [ai.1, aj.1] at g11 g12
    have hp : ∀ k, k < n.toNat → pos3 top.toNat tl.size.toNat k < n.toNat := by
      intro k hk; rw [pos3]; split_ifs <;> omega
    have key : ∀ k l, (blocks3 n top tl tr bl brn br).Same (i.toNat, j.toNat) (k, l) ↔
        ((pos3 top.toNat tl.size.toNat k, pos3 top.toNat tl.size.toNat l) =
            (pos3 top.toNat tl.size.toNat i.toNat, pos3 top.toNat tl.size.toNat j.toNat) ∨
          (pos3 top.toNat tl.size.toNat i.toNat < tl.size.toNat ∧
            pos3 top.toNat tl.size.toNat j.toNat < tl.size.toNat ∧
            pos3 top.toNat tl.size.toNat k < tl.size.toNat ∧ pos3 top.toNat tl.size.toNat l < tl.size.toNat ∧
            tl.Same (pos3 top.toNat tl.size.toNat i.toNat, pos3 top.toNat tl.size.toNat j.toNat)
              (pos3 top.toNat tl.size.toNat k, pos3 top.toNat tl.size.toNat l))) := by
      intro k l
      simp only [Same, Prod.mk.injEq, pos3_inj, pos3_center]
      refine or_congr (by constructor <;> (rintro ⟨rfl, rfl⟩; exact ⟨rfl, rfl⟩)) ?_
      constructor
      · rintro ⟨a1, a2, a3, a4, a5, a6, a7, a8, hsm⟩
        refine ⟨⟨a1, a2⟩, ⟨a3, a4⟩, ⟨a5, a6⟩, ⟨a7, a8⟩, ?_⟩
        rw [pos3_center_val ⟨a1, a2⟩, pos3_center_val ⟨a3, a4⟩, pos3_center_val ⟨a5, a6⟩,
          pos3_center_val ⟨a7, a8⟩]
        exact hsm
      · rintro ⟨⟨a1, a2⟩, ⟨a3, a4⟩, ⟨a5, a6⟩, ⟨a7, a8⟩, hsm⟩
        rw [pos3_center_val ⟨a1, a2⟩, pos3_center_val ⟨a3, a4⟩, pos3_center_val ⟨a5, a6⟩,
          pos3_center_val ⟨a7, a8⟩] at hsm
        exact ⟨a1, a2, a3, a4, a5, a6, a7, a8, hsm⟩
    refine ⟨_, e, ?_, rfl, ?_, ?_, ?_, ?_⟩
    · simp only [Shaped, g2]
      exact ⟨hn, g1, hs, g5, g6, g7, g8, g9, g10, h7⟩
    · funext i j; simp only [Stored, g2, g3]
    · funext i j; simp only [Same, g2, g4]
    · intro k l hk hl hsm
      simp only [entry, g2]
      exact g11 _ _ (hp k hk) (hp l hl) ((key k l).1 hsm)
    · intro k l hk hl hsm
      simp only [entry, g2]
      exact g12 _ _ (hp k hk) (hp l hl) fun hc => hsm ((key k l).2 hc)

/-- A write out of the stored positions. -/
theorem set_outside (p : LinProb K) (h : p.Shaped) {i j : U64} (hi : i.toNat < p.size.toNat)
    (hj : j.toNat < p.size.toNat) (hst : ¬p.Stored i.toNat j.toNat) (v : K) :
    p.set i j v = if |v| < 1 / 10 ^ 15 then .ok p else .abort := by
  induction p generalizing i j with
  | dense n a => exact absurd trivial hst
  | band n kl ku q =>
    rw [LinProb.set, bandSet_out h.1 h.2.1 h.2.2.1 hi hj hst, bandTol]
    split_ifs <;> rfl
  | pdsBand n ext q =>
    rw [LinProb.set, symSet_out (n := n) hi hj hst, bandTol]
    split_ifs <;> rfl
  | pdsTridiag n q =>
    simp only [Stored] at hst
    rw [LinProb.set, symSet_out (n := n) (ext := 2) hi hj (by rw [toNat_two]; omega), bandTol]
    split_ifs <;> rfl
  | blocks2 n tl tr bl brn br ih =>
    obtain ⟨hn, ht, hs, h1, h2, h3, h4, h5, h6⟩ := h
    simp only [Stored, not_forall] at hst
    obtain ⟨c1, c2, hst⟩ := hst
    rw [LinProb.set, set2, guard_lt (n := n) hi, Res.ok_bind, guard_lt (n := n) hj, Res.ok_bind]
    simp only [BitVec.lt_def]
    rw [if_pos ⟨c1, c2⟩, ih ht c1 c2 hst]
    split_ifs <;> rfl
  | blocks3 n top tl tr bl brn br ih =>
    obtain ⟨hn, ht, hs, h1, h2, h3, h4, h5, h6, h7⟩ := h
    have ai := adjust_ok (top := top) (nq := tl.size) (n := n) (by omega) hn hi
    have aj := adjust_ok (top := top) (nq := tl.size) (n := n) (by omega) hn hj
    simp only [Stored, not_forall] at hst
    obtain ⟨a1, a2, a3, a4, hst⟩ := hst
    have b1 := pos3_center.2 ⟨a1, a2⟩
    have b2 := pos3_center.2 ⟨a3, a4⟩
    rw [← ai.1] at b1; rw [← aj.1] at b2
    rw [LinProb.set, set2, guard_lt (by rw [ai.1]; exact ai.2), Res.ok_bind,
      guard_lt (by rw [aj.1]; exact aj.2), Res.ok_bind]
    simp only [BitVec.lt_def]
    rw [if_pos ⟨b1, b2⟩, ih ht b1 b2 (by
      rw [ai.1, aj.1, pos3_center_val ⟨a1, a2⟩, pos3_center_val ⟨a3, a4⟩]; exact hst)]
    split_ifs <;> rfl

/-- A write in a stored position: it and the positions that share its value read the value written, the
others are unchanged, and the set of stored positions is the same. -/
theorem C38_write (p : LinProb K) (h : p.Shaped) (i j : U64) (hi : i.toNat < p.size.toNat)
    (hj : j.toNat < p.size.toNat) (hst : p.Stored i.toNat j.toNat) (v : K) :
    ∃ p', p.set i j v = .ok p' ∧ p'.Shaped ∧ p'.size = p.size ∧ p'.Stored = p.Stored ∧ p'.Same = p.Same ∧
      p'.get i j = .ok v ∧
      (∀ k l : U64, k.toNat < p.size.toNat → l.toNat < p.size.toNat →
        p.Same (i.toNat, j.toNat) (k.toNat, l.toNat) → p'.get k l = .ok v) ∧
      ∀ k l : U64, k.toNat < p.size.toNat → l.toNat < p.size.toNat →
        ¬p.Same (i.toNat, j.toNat) (k.toNat, l.toNat) → p'.get k l = p.get k l := by
  obtain ⟨p', e, w⟩ := set_stored p h hi hj hst v
  have hit : ∀ k l : U64, k.toNat < p.size.toNat → l.toNat < p.size.toNat →
      p.Same (i.toNat, j.toNat) (k.toNat, l.toNat) → p'.get k l = .ok v := by
    intro k l hk hl hs
    rw [get_ok p' w.shaped (by rw [w.size]; exact hk) (by rw [w.size]; exact hl), w.hit _ _ hk hl hs]
  refine ⟨p', e, w.shaped, w.size, w.stored, w.same, hit i j hi hj (Same.refl' _ _), hit, ?_⟩
  intro k l hk hl hs
  rw [get_ok p' w.shaped (by rw [w.size]; exact hk) (by rw [w.size]; exact hl), w.miss _ _ hk hl hs,
    get_ok p h hk hl]

/-- A write out of the stored positions. -/
theorem C38_write_outside (p : LinProb K) (h : p.Shaped) (i j : U64) (hi : i.toNat < p.size.toNat)
    (hj : j.toNat < p.size.toNat) (hst : ¬p.Stored i.toNat j.toNat) (v : K) :
    p.set i j v = if |v| < 1 / 10 ^ 15 then .ok p else .abort :=
  set_outside p h hi hj hst v

/-- Positions that are not stored read zero. -/
theorem C38_read_outside (p : LinProb K) (h : p.Shaped) (i j : U64) (hi : i.toNat < p.size.toNat)
    (hj : j.toNat < p.size.toNat) (hst : ¬p.Stored i.toNat j.toNat) : p.get i j = .ok 0 := by
  rw [get_ok p h hi hj]
  congr 1
  generalize i.toNat = i at *
  generalize j.toNat = j at *
  clear hi hj
  induction p generalizing i j with
  | dense n a => exact absurd trivial hst
  | band n kl ku q => exact if_neg hst
  | pdsBand n ext q =>
    simp only [Stored] at hst
    have := h.2.1
    simp only [entry, lapackSymBand]
    split_ifs <;> first | rfl | omega
  | pdsTridiag n q =>
    simp only [Stored] at hst
    simp only [entry, lapackTridiag]
    split_ifs <;> first | rfl | omega
  | blocks2 n tl tr bl brn br ih =>
    simp only [Stored, not_forall] at hst
    obtain ⟨c1, c2, hst⟩ := hst
    rw [entry]
    simp only [entry2]
    rw [if_pos ⟨c1, c2⟩]
    exact ih h.2.1 i j hst
  | blocks3 n top tl tr bl brn br ih =>
    simp only [Stored, not_forall] at hst
    obtain ⟨a1, a2, a3, a4, hst⟩ := hst
    simp only [LinProb.entry, LinProb.entry2]
    rw [if_pos ⟨pos3_center.2 ⟨a1, a2⟩, pos3_center.2 ⟨a3, a4⟩⟩, pos3_center_val ⟨a1, a2⟩,
      pos3_center_val ⟨a3, a4⟩]
    exact ih h.2.1 _ _ hst

/-- Indices out of the matrix stop the program. -/
theorem C38_out_of_range (p : LinProb K) (h : p.Shaped) (i j : U64)
    (hij : p.size.toNat ≤ i.toNat ∨ p.size.toNat ≤ j.toNat) :
    p.get i j = .abort ∧ ∀ v, p.set i j v = .abort := by
  refine ⟨get_out p h hij, fun v => ?_⟩
  have key : ∀ {α : Type} (n i j : U64) (f : Res α), n.toNat ≤ i.toNat ∨ n.toNat ≤ j.toNat →
      (Res.guardAbort (decide (i < n)) >>= fun _ => Res.guardAbort (decide (j < n)) >>= fun _ => f) = .abort := by
    intro α n i j f h
    rcases Nat.lt_or_ge i.toNat n.toNat with h1 | h1
    · rw [guard_lt h1, Res.ok_bind, guard_not_lt (by omega)]; rfl
    · rw [guard_not_lt h1]; rfl
  cases p with
  | blocks3 n top tl tr bl brn br =>
    have hn := h.1
    obtain ⟨-, -, hs, -, -, -, -, -, -, h7⟩ := h
    have ha : ∀ i : U64, n.toNat ≤ i.toNat → adjust top tl.size i = i := by
      intro i hi
      rw [adjust, if_neg (by rw [BitVec.lt_def]; omega),
        if_neg (by rw [BitVec.lt_def, toNat_add_lt (by omega)]; omega)]
    refine key n _ _ _ ?_
    rcases hij with h | h
    · left; rw [ha i h]; exact h
    · right; rw [ha j h]; exact h
  | blocks2 n tl tr bl brn br => exact key n i j _ hij
  | dense n a =>
    rw [LinProb.set, show denseSet n a i j v = .abort from key n i j _ hij]; rfl
  | band n kl ku q =>
    rw [LinProb.set, show bandSet n kl ku q i j v = .abort from key n i j _ hij]; rfl
  | pdsBand n ext q =>
    rw [LinProb.set, show symSet n ext q i j v = .abort from key n i j _ hij]; rfl
  | pdsTridiag n q =>
    rw [LinProb.set, show symSet n 2 q i j v = .abort from key n i j _ hij]; rfl

/-! ## Histories -/

/-- The writes, one after the other. -/
def writeAll (p : LinProb K) (ws : List (U64 × U64 × K)) : Res (LinProb K) :=
  ws.foldlM (fun p w => p.set w.1 w.2.1 w.2.2) p

open Classical in
/-- The value a position should hold after the writes `ws` (the last one comes last): the one of the
last write that concerns it, `old` if there is none. -/
noncomputable def lastValue (p : LinProb K) (k l : Nat) (old : K) (ws : List (U64 × U64 × K)) : K :=
  ws.foldl (fun x w => if p.Stored w.1.toNat w.2.1.toNat ∧ p.Same (w.1.toNat, w.2.1.toNat) (k, l) then w.2.2
    else x) old

/-- After any sequence of writes every position reads the value last written in it. -/
theorem C38_history (p : LinProb K) (h : p.Shaped) (ws : List (U64 × U64 × K)) (hw : ∀ w ∈ ws, Legal p w) :
    ∃ p', writeAll p ws = .ok p' ∧ p'.Shaped ∧ p'.size = p.size ∧
      ∀ k l : U64, k.toNat < p.size.toNat → l.toNat < p.size.toNat →
        ∃ old, p.get k l = .ok old ∧ p'.get k l = .ok (lastValue p k.toNat l.toNat old ws) := by
  suffices H : ∃ p', writeAll p ws = .ok p' ∧ p'.Shaped ∧ p'.size = p.size ∧
      ∀ k l : U64, k.toNat < p.size.toNat → l.toNat < p.size.toNat →
        p'.get k l = .ok (lastValue p k.toNat l.toNat (p.entry k.toNat l.toNat) ws) by
    obtain ⟨p', e, h1, h2, h3⟩ := H
    exact ⟨p', e, h1, h2, fun k l hk hl => ⟨_, get_ok p h hk hl, h3 k l hk hl⟩⟩
  induction ws generalizing p with
  | nil => exact ⟨p, rfl, h, rfl, fun k l hk hl => get_ok p h hk hl⟩
  | cons w ws ih =>
    obtain ⟨hi, hj, hs⟩ := hw w (by simp)
    by_cases hst : p.Stored w.1.toNat w.2.1.toNat
    · obtain ⟨p1, e1, w1⟩ := set_stored p h hi hj hst w.2.2
      obtain ⟨p', e, h1, h2, h3⟩ := ih p1 w1.shaped (fun x hx => by
        obtain ⟨a, b, c⟩ := hw x (by simp [hx])
        exact ⟨by rw [w1.size]; exact a, by rw [w1.size]; exact b, by rw [w1.stored]; exact c⟩)
      refine ⟨p', by rw [writeAll, List.foldlM_cons, e1, Res.ok_bind]; exact e, h1, h2.trans w1.size, ?_⟩
      intro k l hk hl
      rw [h3 k l (by rw [w1.size]; exact hk) (by rw [w1.size]; exact hl)]
      rw [lastValue, lastValue, List.foldl_cons, w1.stored, w1.same]
      congr 2
      by_cases hsm : p.Same (w.1.toNat, w.2.1.toNat) (k.toNat, l.toNat)
      · rw [if_pos ⟨hst, hsm⟩, w1.hit _ _ hk hl hsm]
      · rw [if_neg (fun c => hsm c.2), w1.miss _ _ hk hl hsm]
    · have e1 := set_outside p h hi hj hst w.2.2
      rw [if_pos (hs.resolve_left hst)] at e1
      obtain ⟨p', e, h1, h2, h3⟩ := ih p h (fun x hx => hw x (by simp [hx]))
      refine ⟨p', by rw [writeAll, List.foldlM_cons, e1, Res.ok_bind]; exact e, h1, h2, ?_⟩
      intro k l hk hl
      rw [h3 k l hk hl, lastValue, lastValue, List.foldl_cons, if_neg (fun c => hst c.1)]

/-! ## What the external solvers read -/

/-- The matrix that is factorised by the external solver is the one that `get_element` shows. -/
theorem C38_lapack (L : Lapack K) (σ : Sched) (p : LinProb K) (h : p.Shaped) (S : Solver K)
    (hS : p.setup L σ = .ok S) (A : Nat → Nat → K) (n : Nat)
    (hA : S = .getrs n A ∨ S = .gbtrs n A ∨ S = .pbtrs n A ∨ S = .pttrs n A) :
    n = p.size.toNat ∧ ∀ i j : U64, i.toNat < n → j.toNat < n → p.get i j = .ok (A i.toNat j.toNat) := by
  suffices H : n = p.size.toNat ∧ A = p.entry from
    ⟨H.1, fun i j hi hj => by rw [get_ok p h (H.1 ▸ hi) (H.1 ▸ hj), H.2]⟩
  cases p with
  | dense m a =>
    simp only [LinProb.setup, denseSetup] at hS
    split_ifs at hS
    · obtain rfl := Res.ok.inj hS
      rcases hA with hA | hA | hA | hA <;> cases hA
      exact ⟨rfl, rfl⟩
    · cases hS
  | band m kl ku q =>
    simp only [LinProb.setup] at hS
    split_ifs at hS
    obtain rfl := Res.ok.inj hS
    rcases hA with hA | hA | hA | hA <;> cases hA
    exact ⟨rfl, rfl⟩
  | pdsBand m ext q =>
    simp only [LinProb.setup] at hS
    have he := h.2.1
    have : (ext - 1).toNat = ext.toNat - 1 := by rw [toNat_sub_le (by rw [toNat_one]; omega), toNat_one]
    rw [this] at hS
    split_ifs at hS
    obtain rfl := Res.ok.inj hS
    rcases hA with hA | hA | hA | hA <;> cases hA
    exact ⟨rfl, rfl⟩
  | pdsTridiag m q =>
    simp only [LinProb.setup] at hS
    split_ifs at hS
    obtain rfl := Res.ok.inj hS
    rcases hA with hA | hA | hA | hA <;> cases hA
    exact ⟨rfl, rfl⟩
  | blocks2 m tl tr bl brn br =>
    obtain ⟨S1, -, hS⟩ := Res.bind_eq_ok.1 hS
    obtain ⟨⟨t, b, A1⟩, -, hS⟩ := Res.bind_eq_ok.1 hS
    obtain rfl := Res.ok.inj hS
    rcases hA with hA | hA | hA | hA <;> cases hA
  | blocks3 m top tl tr bl brn br =>
    obtain ⟨S1, -, hS⟩ := Res.bind_eq_ok.1 hS
    obtain ⟨⟨t, b, A1⟩, -, hS⟩ := Res.bind_eq_ok.1 hS
    obtain rfl := Res.ok.inj hS
    rcases hA with hA | hA | hA | hA <;> cases hA

/-! ## The constructors -/

/-- A new matrix of size `n`: its storage is consistent and all entries are zero. -/
structure Fresh (p : LinProb K) (n : Nat) : Prop where
  shaped : p.Shaped
  size : p.size.toNat = n
  zero : ∀ i j : U64, i.toNat < n → j.toNat < n → p.get i j = .ok 0

theorem fresh_of {p : LinProb K} {n : Nat} (h : p.Shaped) (hs : p.size.toNat = n)
    (hz : ∀ i j, i < n → j < n → p.entry i j = 0) : Fresh p n :=
  ⟨h, hs, fun i j hi hj => by rw [get_ok p h (hs ▸ hi) (hs ▸ hj), hz _ _ hi hj]⟩

theorem Fresh.entry {p : LinProb K} {n : Nat} (h : Fresh p n) {i j : Nat} (hi : i < n) (hj : j < n) :
    p.entry i j = 0 := by
  have hn := h.shaped.small
  rw [h.size] at hn
  have e : ∀ k, k < n → (BitVec.ofNat 64 k).toNat = k := fun k hk => by
    rw [BitVec.toNat_ofNat, Nat.mod_eq_of_lt (by omega)]
  have := h.zero (BitVec.ofNat 64 i) (BitVec.ofNat 64 j) (by rw [e i hi]; exact hi) (by rw [e j hj]; exact hj)
  rw [get_ok p h.shaped (by rw [e i hi, h.size]; exact hi) (by rw [e j hj, h.size]; exact hj), e i hi, e j hj]
    at this
  exact Res.ok.inj this

/-- New matrices are zero. -/
theorem C38_fresh (n : U64) (hn : n.toNat < 2 ^ 60) :
    Fresh (mkDense n : LinProb K) n.toNat ∧ Fresh (mkPdsTridiag n : LinProb K) n.toNat ∧
    (∀ kl ku : U64, kl.toNat ≤ n.toNat → ku.toNat ≤ n.toNat →
      ∃ p : LinProb K, mkBand n kl ku = .ok p ∧ Fresh p n.toNat) ∧
    (∀ kd : U64, kd.toNat < n.toNat → ∃ p : LinProb K, mkPdsBand n kd = .ok p ∧ Fresh p n.toNat) ∧
    (∀ (m : Nat) (tl : LinProb K), Fresh tl m → m ≤ n.toNat →
      ∃ p, mkBlocks2 n tl = .ok p ∧ Fresh p n.toNat) ∧
    ∀ (m : Nat) (tl : LinProb K) (top : U64), Fresh tl m → m + top.toNat ≤ n.toNat →
      ∃ p, mkBlocks3 n top tl = .ok p ∧ Fresh p n.toNat := by
  refine ⟨?_, ?_, ?_, ?_, ?_, ?_⟩
  · exact fresh_of ⟨by omega, rfl, rfl⟩ rfl fun i j _ _ => rfl
  · refine fresh_of ⟨by omega, rfl, rfl⟩ rfl fun i j _ _ => ?_
    simp [LinProb.entry, mkPdsTridiag, lapackTridiag, Mat.zero]
  · intro kl ku h1 h2
    refine ⟨_, by
      rw [mkBand, decide_eq_true (BitVec.le_def.2 h1), decide_eq_true (BitVec.le_def.2 h2)]; rfl, ?_⟩
    refine fresh_of ⟨by omega, by omega, by omega, ?_, rfl⟩ rfl fun i j _ _ => ?_
    · have e1 : (2 * kl).toNat = 2 * kl.toNat := by
        rw [BitVec.toNat_mul, toNat_two, Nat.mod_eq_of_lt (by omega)]
      rw [Mat.zero, toNat_add_lt (by rw [toNat_add_lt (by omega), e1, toNat_one]; omega),
        toNat_add_lt (by omega), e1, toNat_one]
    · simp [LinProb.entry, lapackBand, Mat.zero]
  · intro kd h1
    have e : (kd + 1).toNat = kd.toNat + 1 := by rw [toNat_add_lt (by rw [toNat_one]; omega), toNat_one]
    refine ⟨_, by rw [mkPdsBand, decide_eq_true (BitVec.le_def.2 (by omega))]; rfl, ?_⟩
    refine fresh_of ⟨by omega, by omega, rfl, rfl⟩ rfl fun i j _ _ => ?_
    simp [LinProb.entry, lapackSymBand, Mat.zero]
  · intro m tl htl hm
    have hm' := htl.size
    refine ⟨_, by rw [mkBlocks2, decide_eq_true (BitVec.le_def.2 (by omega))]; rfl, ?_⟩
    refine fresh_of ⟨by omega, htl.shaped, ?_, rfl, rfl, rfl, rfl, rfl, rfl⟩ rfl fun i j _ _ => ?_
    · rw [toNat_sub_le (by omega)]; omega
    · simp only [LinProb.entry, LinProb.entry2, Mat.zero]
      split_ifs with c <;> first | rfl | exact htl.entry (hm' ▸ c.1) (hm' ▸ c.2)
  · intro m tl top htl hm
    have hm' := htl.size
    refine ⟨_, by rw [mkBlocks3, decide_eq_true (BitVec.le_def.2 (by omega))]; rfl, ?_⟩
    refine fresh_of ⟨by omega, htl.shaped, ?_, rfl, rfl, rfl, rfl, rfl, rfl, ?_⟩ rfl fun i j _ _ => ?_
    · rw [toNat_sub_le (by omega)]; omega
    · rw [toNat_sub_le (by omega)]; omega
    · simp only [LinProb.entry, LinProb.entry2, Mat.zero]
      split_ifs with c <;> first | rfl | exact htl.entry (hm' ▸ c.1) (hm' ▸ c.2)

/-! ## Concrete cases -/

/-- A band matrix: writes, reads and a read out of the band. -/
example : (do
    let p ← (mkBand 9 1 2 : Res (LinProb Rat))
    let p ← p.set 3 2 5
    let p ← p.set 3 5 7
    let p ← p.set 3 2 6
    return [← p.get 3 2, ← p.get 3 5, ← p.get 2 3, ← p.get 8 0]) = .ok [6, 7, 0, 0] := by decide +kernel

/-- A symmetric one. -/
example : (do
    let p ← (mkPdsBand 5 2 : Res (LinProb Rat))
    let p ← p.set 3 1 5
    return [← p.get 1 3, ← p.get 3 1, ← p.get 2 3]) = .ok [5, 5, 0] := by decide +kernel

/-- Three blocks on the diagonal. -/
example : (do
    let p ← (makeBlocks 12 1 1 true 2 3 : Res (LinProb Rat))
    let p ← p.set 0 11 1
    let p ← p.set 3 2 2
    let p ← p.set 5 4 3
    let p ← p.set 11 11 4
    return [← p.get 0 11, ← p.get 3 2, ← p.get 2 3, ← p.get 5 4, ← p.get 4 5, ← p.get 11 11]) =
      .ok [1, 2, 0, 3, 3, 4] := by decide +kernel

/-- A large value out of the band stops the program; a negligible one is dropped. -/
example : (do
    let p ← (mkBand 9 1 2 : Res (LinProb Rat))
    let _ ← p.set 8 0 1) = .abort ∧
    (do
      let p ← (mkBand 9 1 2 : Res (LinProb Rat))
      let p ← p.set 8 0 (1 / 10 ^ 16)
      p.get 8 0) = .ok 0 := by
  constructor <;> decide +kernel

end DDC.Props
