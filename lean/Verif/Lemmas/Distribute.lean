import Verif.Lemmas.Block

/-!
# `distribute_blocks`: closed form
-/

namespace DDC.Block

open Spec

/-- Exponents of the greedy distribution of `2^k` blocks on dimensions of sizes `ns`: each
dimension in turn takes as many doublings as its size allows. -/
def _root_.DDC.Spec.greedy : Nat → List Nat → List Nat
  | _, [] => []
  | k, n :: ns => min k n.log2 :: greedy (k - n.log2) ns

theorem isPowerOf2_iff {n : U64} : isPowerOf2 n = true ↔ ∃ k, k < 64 ∧ n.toNat = 2 ^ k := by
  simp only [isPowerOf2, Bool.and_eq_true, decide_eq_true_eq]
  constructor
  · rintro ⟨h1, h2⟩
    have h0 : n.toNat ≠ 0 := by
      have : (0 : U64).toNat < n.toNat := h1
      simp at this; omega
    have hlt := n.isLt
    have e2 : n.toNat &&& (n.toNat - 1) = 0 := by
      have := congrArg BitVec.toNat h2
      rw [BitVec.toNat_and, BitVec.toNat_sub, show (1 : U64).toNat = 1 from rfl] at this
      rw [show (2 ^ 64 - 1 + n.toNat) % 2 ^ 64 = n.toNat - 1 by omega] at this
      simpa using this
    have l1 := Nat.log2_self_le h0
    have l2 := Nat.lt_log2_self (n := n.toNat)
    generalize n.toNat.log2 = k at *
    have hk : k < 64 := by
      by_contra hc
      have : 2 ^ 64 ≤ 2 ^ k := Nat.pow_le_pow_right (by omega) (by omega)
      omega
    refine ⟨k, hk, ?_⟩
    by_contra hne
    have hp : 2 ^ (k + 1) = 2 * 2 ^ k := by rw [Nat.pow_succ]; omega
    have b1 : n.toNat.testBit k = true := by
      rw [Nat.testBit_eq_decide_div_mod_eq, show n.toNat / 2 ^ k = 1 from by
        exact Nat.div_eq_of_lt_le (by omega) (by omega)]
      rfl
    have b2 : (n.toNat - 1).testBit k = true := by
      rw [Nat.testBit_eq_decide_div_mod_eq, show (n.toNat - 1) / 2 ^ k = 1 from by
        exact Nat.div_eq_of_lt_le (by omega) (by omega)]
      rfl
    have := congrArg (fun m => Nat.testBit m k) e2
    simp [b1, b2] at this
  · rintro ⟨k, hk, h⟩
    have hpos : 0 < 2 ^ k := Nat.two_pow_pos k
    have hlt := n.isLt
    refine ⟨?_, ?_⟩
    · show (0 : U64).toNat < n.toNat
      simp; omega
    · apply BitVec.eq_of_toNat_eq
      rw [BitVec.toNat_and, BitVec.toNat_sub, show (1 : U64).toNat = 1 from rfl,
        show (2 ^ 64 - 1 + n.toNat) % 2 ^ 64 = n.toNat - 1 by omega, h, Nat.and_two_pow_sub_one_eq_mod, Nat.mod_self]
      rfl

theorem toNat_ofNat_pow {k : Nat} (h : k < 64) : (BitVec.ofNat 64 (2 ^ k) : U64).toNat = 2 ^ k := by
  rw [BitVec.toNat_ofNat, Nat.mod_eq_of_lt]
  exact Nat.pow_lt_pow_right (by omega) h

theorem le_log2_iff {n j : Nat} (h : j ≤ n.log2) : 2 ^ (j + 1) ≤ n ↔ j < n.log2 := by
  by_cases h0 : n = 0
  · subst h0
    have : 0 < 2 ^ (j + 1) := Nat.two_pow_pos _
    simp
  · exact (Nat.le_log2 h0).symm

/-- The loop, started in dimension `dim = pre.length` with `2^j` blocks in that dimension. -/
theorem distributeLoop_eq : ∀ (post : List Nat) (pre : List I64) (done : List I64) (n k j : Nat),
    done.length = pre.length → (∀ m ∈ n :: post, m < 2 ^ 62) → k < 64 → j ≤ n.log2 →
    distributeLoop (pre ++ (n :: post).map (BitVec.ofNat 64)) (BitVec.ofNat 64 (2 ^ k))
        (done ++ BitVec.ofNat 64 (2 ^ j) :: post.map (fun _ => 1)) pre.length
      = if k ≤ (n.log2 - j) + (post.map Nat.log2).sum then
          .ok (done ++ BitVec.ofNat 64 (2 ^ (j + min k (n.log2 - j)))
            :: (greedy (k - (n.log2 - j)) post).map (fun i => BitVec.ofNat 64 (2 ^ i)))
        else .throw := by
  intro post
  induction post with
  | nil =>
    intro pre done n k
    induction k with
    | zero =>
      intro j _ _ _ _
      rw [distributeLoop]
      simp [greedy]
    | succ k ih => 
      intro j hd hs hk hj
      have := step pre done n k j [] hd hs hk hj
      rw [this]
      by_cases h : j < n.log2
      · rw [if_pos h, ih (j + 1) hd hs (by omega) (by omega)]
        simp only [List.map_nil, List.sum_nil, greedy]
        have e : (k + 1 ≤ n.log2 - j + 0) ↔ (k ≤ n.log2 - (j + 1) + 0) := by omega
        have e2 : j + 1 + min k (n.log2 - (j + 1)) = j + min (k + 1) (n.log2 - j) := by omega
        simp only [e, e2]
      · rw [if_neg h, if_neg (by simp; omega), distributeLoop, if_neg (ne_one hk), dif_neg (ne_zero hk), dif_pos (by simp)]
  | cons n' post ihp =>
    intro pre done n k
    induction k with
    | zero =>
      intro j _ _ _ _
      rw [distributeLoop]
      have h0 : ∀ l : List Nat, (greedy 0 l).map (fun i => (BitVec.ofNat 64 (2 ^ i) : I64)) = l.map (fun _ => 1) := by
        intro l
        induction l with
        | nil => rfl
        | cons a l ih => simp [greedy, ih]
      simp [greedy, h0]
    | succ k ih =>
      intro j hd hs hk hj
      have := step pre done n k j (n' :: post) hd hs hk hj
      rw [this]
      by_cases h : j < n.log2
      · rw [if_pos h, ih (j + 1) hd hs (by omega) (by omega)]
        have e : (k + 1 ≤ n.log2 - j + ((n' :: post).map Nat.log2).sum)
            ↔ (k ≤ n.log2 - (j + 1) + ((n' :: post).map Nat.log2).sum) := by omega
        have e2 : j + 1 + min k (n.log2 - (j + 1)) = j + min (k + 1) (n.log2 - j) := by omega
        have e3 : k - (n.log2 - (j + 1)) = k + 1 - (n.log2 - j) := by omega
        simp only [e, e2, e3]
      · rw [if_neg h]
        have hjn : j = n.log2 := by omega
        have := ihp (pre ++ [BitVec.ofNat 64 n]) (done ++ [BitVec.ofNat 64 (2 ^ j)]) n' (k + 1) 0
          (by simp [hd]) (fun m hm => hs m (by simp at hm ⊢; tauto)) hk (by omega)
        simp only [List.map_cons, List.append_assoc, List.cons_append, List.nil_append, List.length_append,
          List.length_cons, List.length_nil, Nat.zero_add, Nat.pow_zero] at this ⊢
        rw [show (BitVec.ofNat 64 1 : I64) = 1 from rfl] at this
        rw [this]
        subst hjn
        simp only [List.sum_cons, Nat.sub_zero, Nat.sub_self, Nat.zero_add, greedy, Nat.add_zero, List.map_cons]
        simp
where
  ne_one {k : Nat} (hk : k + 1 < 64) : (BitVec.ofNat 64 (2 ^ (k + 1)) : U64) ≠ 1 := by
    intro h
    have := congrArg BitVec.toNat h
    rw [toNat_ofNat_pow hk, Nat.pow_succ] at this
    have e1 : (1 : U64).toNat = 1 := rfl
    omega
  ne_zero {k : Nat} (hk : k + 1 < 64) : (BitVec.ofNat 64 (2 ^ (k + 1)) : U64) ≠ 0 := by
    intro h
    have := congrArg BitVec.toNat h
    rw [toNat_ofNat_pow hk] at this
    have e1 : (0 : U64).toNat = 0 := rfl
    have := Nat.two_pow_pos (k + 1)
    omega
  step (pre done : List I64) (n k j : Nat) (post : List Nat) (hd : done.length = pre.length)
      (hs : ∀ m ∈ n :: post, m < 2 ^ 62) (hk : k + 1 < 64) (hj : j ≤ n.log2) :
      distributeLoop (pre ++ (n :: post).map (BitVec.ofNat 64)) (BitVec.ofNat 64 (2 ^ (k + 1)))
        (done ++ BitVec.ofNat 64 (2 ^ j) :: post.map (fun _ => 1)) pre.length
      = if j < n.log2 then
          distributeLoop (pre ++ (n :: post).map (BitVec.ofNat 64)) (BitVec.ofNat 64 (2 ^ k))
            (done ++ BitVec.ofNat 64 (2 ^ (j + 1)) :: post.map (fun _ => 1)) pre.length
        else
          distributeLoop (pre ++ (n :: post).map (BitVec.ofNat 64)) (BitVec.ofNat 64 (2 ^ (k + 1)))
            (done ++ BitVec.ofNat 64 (2 ^ j) :: post.map (fun _ => 1)) (pre.length + 1) := by
    have hn := hs n (by simp)
    have hj62 : 2 ^ j ≤ 2 ^ 61 := by
      by_cases h0 : n = 0
      · subst h0; simp at hj; subst hj; omega
      · have h1 : 2 ^ j ≤ n := Nat.le_trans (Nat.pow_le_pow_right (by omega) hj) (Nat.log2_self_le h0)
        refine Nat.pow_le_pow_right (by omega) ?_
        by_contra hc
        have : 2 ^ 62 ≤ 2 ^ j := Nat.pow_le_pow_right (by omega) (by omega)
        omega
    have hat : at' (done ++ BitVec.ofNat 64 (2 ^ j) :: post.map (fun _ => 1)) pre.length = .ok (BitVec.ofNat 64 (2 ^ j)) := by
      simp [at', ← hd]
    have htw : sMul (BitVec.ofNat 64 (2 ^ j)) 2 = .ok (BitVec.ofNat 64 (2 ^ (j + 1))) := by
      rw [Nat.pow_succ]
      generalize 2 ^ j = m at hj62
      rw [sMul, Support.toInt_ofNat_small (by omega), show (2 : I64).toInt = 2 from rfl,
        Vect.signedRes_ok (by simp only [Vect.InRange]; omega)]
      rfl
    rw [distributeLoop, if_neg (ne_one hk), dif_neg (ne_zero hk), dif_neg (by simp)]
    simp only [hat, htw, Res.ok_bind]
    have hget : (pre ++ (n :: post).map (BitVec.ofNat 64))[pre.length]'(by simp) = (BitVec.ofNat 64 n : I64) := by simp
    rw [hget, Support.toInt_ofNat_small (by omega), Support.toInt_ofNat_small (by rw [Nat.pow_succ]; omega)]
    have hiff : ((n : Int) ≥ ((2 ^ (j + 1) : Nat) : Int)) ↔ j < n.log2 := by
      rw [← le_log2_iff hj]; omega
    have hdiv : (BitVec.ofNat 64 (2 ^ (k + 1)) : U64) / 2 = BitVec.ofNat 64 (2 ^ k) := by
      apply BitVec.eq_of_toNat_eq
      rw [BitVec.toNat_udiv, toNat_ofNat_pow hk, toNat_ofNat_pow (by omega), show (2 : U64).toNat = 2 from rfl,
        Nat.pow_succ]
      omega
    have hset : (done ++ (BitVec.ofNat 64 (2 ^ j) : I64) :: post.map (fun _ => 1)).set pre.length (BitVec.ofNat 64 (2 ^ (j + 1)))
        = done ++ BitVec.ofNat 64 (2 ^ (j + 1)) :: post.map (fun _ => 1) := by
      rw [← hd]; simp
    by_cases h : j < n.log2
    · rw [if_pos (hiff.2 h), if_pos h, hdiv, hset]
    · rw [if_neg (fun hc => h (hiff.1 hc)), if_neg h]

theorem distribute_eq {ns : List Nat} {k : Nat} (hs : ∀ m ∈ ns, m < 2 ^ 62) (hk : k < 64) :
    distribute (BitVec.ofNat 64 (2 ^ k)) (ns.map (BitVec.ofNat 64)) =
      if k ≤ (ns.map Nat.log2).sum then .ok ((greedy k ns).map (fun i => BitVec.ofNat 64 (2 ^ i))) else .throw := by
  rw [distribute, if_pos (isPowerOf2_iff.2 ⟨k, hk, toNat_ofNat_pow hk⟩)]
  cases ns with
  | nil =>
    cases k with
    | zero => rw [distributeLoop]; simp [greedy]
    | succ k =>
      rw [distributeLoop, if_neg (distributeLoop_eq.ne_one hk), dif_neg (distributeLoop_eq.ne_zero hk), dif_pos (by simp)]
      simp
  | cons n ns =>
    have := distributeLoop_eq ns [] [] n k 0 rfl hs hk (by omega)
    simp only [List.nil_append, List.length_nil, Nat.pow_zero, Nat.sub_zero, Nat.zero_add] at this
    rw [show (BitVec.ofNat 64 1 : I64) = 1 from rfl] at this
    rw [show ((n :: ns).map (BitVec.ofNat 64)).map (fun _ => (1 : I64)) = 1 :: ns.map (fun _ => 1) by
      simp [Function.comp_def], this]
    simp [greedy]

theorem greedy_sum : ∀ (ns : List Nat) (k : Nat), (greedy k ns).sum = min k (ns.map Nat.log2).sum := by
  intro ns
  induction ns with
  | nil => intro k; simp [greedy]
  | cons n ns ih => intro k; simp only [greedy, List.sum_cons, ih, List.map_cons]; omega

theorem greedy_length : ∀ (ns : List Nat) (k : Nat), (greedy k ns).length = ns.length := by
  intro ns
  induction ns with
  | nil => intro k; rfl
  | cons n ns ih => intro k; simp [greedy, ih]

end DDC.Block
