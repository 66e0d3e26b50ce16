import Verif.Model.AlignedAllocator
import Mathlib.Data.List.Basic
import Mathlib.Tactic.Ring
import Mathlib.Tactic.Linarith
import Mathlib.Data.Nat.Log

/-!
# C81 — memory from the aligned allocator
-/

namespace DDC.Props

open Aligned

/-- Specification: two arrays of bytes share no byte, nor their address. -/
def Apart (p m q n : Nat) : Prop := p ≠ q ∧ (p + m ≤ q ∨ q + n ≤ p)

/-- The contract of `operator new[]`: an address that is not null, of the right alignment, of a free part of the memory. -/
structure GivenOut (heap : List Block) (size N a : Nat) : Prop where
  pos : 0 < a
  aligned : N ∣ a
  free : ∀ b ∈ heap, Apart a size b.addr b.size

/-- The choices of the allocator function in a history obey its contract. -/
def Contract (T : Ty) (N : Nat) : State → List Op → Prop
  | _, [] => True
  | s, op :: ops =>
    (∀ n a, op = .get n (some a) → GivenOut s.heap (n * T.size + cookie T) N a) ∧
      ∀ s', run1 T N s op = .ok s' → Contract T N s' ops

/-- Specification: what the arrays that a user holds are worth. -/
structure GoodArrays (T : Ty) (N : Nat) (foreign : List Block) (s : State) : Prop where
  /-- they are aligned as asked, and not null -/
  aligned : ∀ x ∈ s.held, 0 < x.1 ∧ N ∣ x.1 ∧ T.align ∣ x.1
  /-- they do not overlap -/
  apart : s.held.Pairwise fun x y => Apart x.1 (x.2 * T.size) y.1 (y.2 * T.size)
  /-- nor do they overlap the memory in use before -/
  others : ∀ x ∈ s.held, ∀ b ∈ foreign, Apart x.1 (x.2 * T.size) b.addr b.size
  /-- the heap holds them and nothing else -/
  heap : s.heap = s.held.map (fun x => ⟨x.1, x.2 * T.size, N⟩) ++ foreign

theorem Apart.symm {p m q n : Nat} (h : Apart p m q n) : Apart q n p m := ⟨h.1.symm, h.2.symm⟩

variable {T : Ty} {N : Nat} {foreign : List Block}

theorem filter_other {l : List (Nat × Nat)} {f : Nat × Nat → Block} (hf : ∀ x, (f x).addr = x.1) (hl : l.Pairwise fun x y => x.1 ≠ y.1)
    {k : Nat} (hk : k < l.length) : (l.map f).filter (fun b => b.addr != l[k].1) = (l.eraseIdx k).map f := by
  induction l generalizing k with
  | nil => exact absurd hk (by simp)
  | cons x l ih =>
    rw [List.pairwise_cons] at hl
    cases k with
    | zero =>
      have : (l.map f).filter (fun b => b.addr != x.1) = l.map f := by
        rw [List.filter_eq_self]
        intro b hb
        obtain ⟨y, hy, rfl⟩ := List.mem_map.1 hb
        rw [hf, bne_iff_ne]
        exact (hl.1 y hy).symm
      simp [hf, this]
    | succ k =>
      have hk' : k < l.length := by simpa using hk
      have hne : (f x).addr ≠ l[k].1 := by rw [hf]; exact hl.1 _ (List.getElem_mem hk')
      simp [hne, ih hl.2 hk']

/-- One operation keeps the arrays good. -/
theorem good_step (ht : T.trivial = true) (ha : 0 < T.align) (hp : 2 ^ N.log2 = N) (hd : T.align ∣ N) {s : State}
    (h : GoodArrays T N foreign s) (op : Op) (hc : ∀ n a, op = .get n (some a) → GivenOut s.heap (n * T.size + cookie T) N a) :
    run1 T N s op = .throw ∧ (∃ n, op = .get n none ∨ ∃ c, op = .get n c ∧ 2 ^ 63 ≤ n * T.size) ∨
      ∃ s', run1 T N s op = .ok s' ∧ GoodArrays T N foreign s' := by
  have hck : cookie T = 0 := by rw [cookie, if_pos ht]
  cases op with
  | get n choice =>
    rw [run1, allocate, hck, Nat.add_zero]
    by_cases hbig : 2 ^ 63 ≤ n * T.size
    · rw [if_pos hbig]
      exact .inl ⟨rfl, n, .inr ⟨_, rfl, hbig⟩⟩
    · rw [if_neg hbig]
      cases choice with
      | none =>
        rw [operatorNew, if_pos hp]
        exact .inl ⟨rfl, n, .inl rfl⟩
      | some a =>
        have g := hc n a rfl
        rw [hck, Nat.add_zero] at g
        have hal : T.align ∣ a := hd.trans g.aligned
        refine .inr ⟨⟨(a, n) :: s.held, ⟨a, n * T.size, N⟩ :: s.heap⟩, ?_, ?_, ?_, ?_, ?_⟩
        · rw [operatorNew, if_pos hp]
          simp only [Res.ok_bind, Nat.add_zero]
          rw [if_pos (Nat.mod_eq_zero_of_dvd hal), Res.ok_bind]
        · intro x hx
          rcases List.mem_cons.1 hx with rfl | hx
          · exact ⟨g.pos, g.aligned, hal⟩
          · exact h.aligned x hx
        · refine List.pairwise_cons.2 ⟨fun y hy => ?_, h.apart⟩
          exact g.free ⟨y.1, y.2 * T.size, N⟩ (by rw [h.heap]; exact List.mem_append_left _ (List.mem_map.2 ⟨y, hy, rfl⟩))
        · intro x hx b hb
          rcases List.mem_cons.1 hx with rfl | hx
          · exact g.free b (by rw [h.heap]; exact List.mem_append_right _ hb)
          · exact h.others x hx b hb
        · simp [h.heap]
  | release k =>
    refine .inr ?_
    rw [run1]
    by_cases hk : k < s.held.length
    · rw [List.getElem?_eq_getElem hk]
      obtain ⟨x, hx⟩ : ∃ x, x = s.held[k] := ⟨_, rfl⟩
      have hm : x ∈ s.held := by rw [hx]; exact List.getElem_mem hk
      rw [← hx]
      have hpos := (h.aligned x hm).1
      have hany : s.heap.any (fun b => b.addr == x.1 && b.align == N) = true := by
        rw [List.any_eq_true, h.heap]
        exact ⟨⟨x.1, x.2 * T.size, N⟩, List.mem_append_left _ (List.mem_map.2 ⟨x, hm, rfl⟩), by simp⟩
      refine ⟨⟨s.held.eraseIdx k, s.heap.filter fun b => b.addr != x.1⟩, ?_, ?_, ?_, ?_, ?_⟩
      · dsimp only
        rw [deallocate, operatorDelete, if_neg (by omega), if_pos hany, Res.ok_bind]
      · exact fun y hy => h.aligned y (List.mem_of_mem_eraseIdx hy)
      · exact h.apart.sublist (List.eraseIdx_sublist _ _)
      · exact fun y hy => h.others y (List.mem_of_mem_eraseIdx hy)
      · dsimp only
        rw [h.heap, List.filter_append, hx, filter_other (by intro x; rfl) (h.apart.imp fun h => h.1) hk]
        congr 1
        rw [List.filter_eq_self]
        intro b hb
        rw [bne_iff_ne]
        exact ((h.others _ (List.getElem_mem hk) b hb).1).symm
    · rw [List.getElem?_eq_none (by omega)]
      exact ⟨s, rfl, h⟩

/-- Every history of a user of the allocator, for a type without destructor: no operation is undefined, the arrays are aligned,
do not overlap, and the heap holds them and nothing else; only the lack of memory stops a history. -/
theorem C81_history_partial (ht : T.trivial = true) (ha : 0 < T.align) (hp : 2 ^ N.log2 = N) (hd : T.align ∣ N) {s : State}
    (h : GoodArrays T N foreign s) (ops : List Op) (hc : Contract T N s ops) :
    run T N s ops = .throw ∧ (∃ n, Op.get n none ∈ ops ∨ ∃ c, Op.get n c ∈ ops ∧ 2 ^ 63 ≤ n * T.size) ∨
      ∃ s', run T N s ops = .ok s' ∧ GoodArrays T N foreign s' := by
  induction ops generalizing s with
  | nil => exact .inr ⟨s, rfl, h⟩
  | cons op ops ih =>
    rw [run, List.foldlM_cons]
    rcases good_step ht ha hp hd h op hc.1 with ⟨e, n, hn⟩ | ⟨s', e, h'⟩
    · rw [e, Res.throw_bind]
      refine .inl ⟨rfl, n, ?_⟩
      rcases hn with rfl | ⟨c, rfl, hn⟩
      · exact .inl List.mem_cons_self
      · exact .inr ⟨c, List.mem_cons_self, hn⟩
    · rw [e, Res.ok_bind]
      rcases ih h' (hc.2 s' e) with ⟨e', n, hn⟩ | hok
      · refine .inl ⟨e', n, ?_⟩
        rcases hn with hn | ⟨c, hn, hb⟩
        · exact .inl (List.mem_cons_of_mem _ hn)
        · exact .inr ⟨c, List.mem_cons_of_mem _ hn, hb⟩
      · exact .inr hok

/-- Once all the arrays are released, the heap is what it was. -/
theorem C81_released {s : State} (h : GoodArrays T N foreign s) (hh : s.held = []) : s.heap = foreign := by
  rw [h.heap, hh]; rfl

/-- The user starts with nothing. -/
theorem C81_start (T : Ty) (N : Nat) (foreign : List Block) : GoodArrays T N foreign ⟨[], foreign⟩ :=
  ⟨by simp, by simp, by simp, by simp⟩

/-- An alignment that is not a power of two is undefined behaviour. -/
theorem C81_power_of_two (hp : 2 ^ N.log2 ≠ N) (heap : List Block) {n : Nat} (hn : n * T.size + cookie T < 2 ^ 63) (c : Option Nat) :
    allocate T N heap n c = .ub := by
  rw [allocate, if_neg (by omega), operatorNew.eq_def, if_neg hp]; rfl

/-- For a type with a destructor, an array that is released is always undefined behaviour: the address is not that of the block. -/
theorem C81_destructor (ht : T.trivial = false) {n : Nat} (hn : 0 < n * T.size) {heap : List Block} {a : Nat}
    (hg : GivenOut heap (n * T.size + cookie T) N a) {heap' : List Block} {p : Nat} (h : allocate T N heap n (some a) = .ok (heap', p)) :
    deallocate N heap' p n = .ub := by
  have hck : 8 ≤ cookie T := by rw [cookie, if_neg (by simp [ht])]; exact le_max_left _ _
  rw [allocate] at h
  split_ifs at h with hbig
  rw [operatorNew] at h
  by_cases hp : 2 ^ N.log2 = N
  swap
  · rw [if_neg hp] at h; cases h
  rw [if_pos hp, Res.ok_bind] at h
  split_ifs at h with hal
  have e := Res.ok.inj h
  have e1 : heap' = ⟨a, n * T.size + cookie T, N⟩ :: heap := (congrArg Prod.fst e).symm
  have e2 : p = a + cookie T := (congrArg Prod.snd e).symm
  rw [deallocate, operatorDelete, if_neg (by omega), if_neg]
  rw [Bool.not_eq_true, List.any_eq_false, e1, e2]
  intro b hb
  rw [Bool.and_eq_true, not_and_or]
  left
  rw [beq_iff_eq]
  rcases List.mem_cons.1 hb with rfl | hb
  · dsimp only; omega
  · have := (hg.free b hb).2
    have := (hg.free b hb).1
    have hpos := hg.pos
    rcases (hg.free b hb).2 with h1 | h1 <;> omega

/-- Nor is such an array aligned, if more is asked than eight bytes and than the type needs. -/
theorem C81_not_aligned (ht : T.trivial = false) (h8 : 8 < N) (hT : T.align < N) {heap : List Block} {n a : Nat}
    (hg : GivenOut heap (n * T.size + cookie T) N a) {heap' : List Block} {p : Nat} (h : allocate T N heap n (some a) = .ok (heap', p)) :
    ¬ N ∣ p := by
  have hck : cookie T = max 8 T.align := by rw [cookie, if_neg (by simp [ht])]
  rw [allocate] at h
  split_ifs at h with hbig
  rw [operatorNew] at h
  by_cases hp : 2 ^ N.log2 = N
  swap
  · rw [if_neg hp] at h; cases h
  rw [if_pos hp, Res.ok_bind] at h
  split_ifs at h with hal
  have e2 : p = a + cookie T := (congrArg Prod.snd (Res.ok.inj h)).symm
  rw [e2, Nat.dvd_add_right hg.aligned, hck]
  intro hdvd
  have := Nat.le_of_dvd (by omega) hdvd
  omega

/-- Two allocators are equal exactly when their types are. -/
theorem C81_equal (T : Ty) (NT : Nat) (U : Ty) (NU : Nat) :
    (eq T NT U NU = true ↔ T.id = U.id ∧ NT = NU) ∧ (ne T NT U NU = true ↔ ¬ (T.id = U.id ∧ NT = NU)) := by
  simp only [Aligned.eq, Aligned.ne, Bool.not_eq_true', Bool.and_eq_true, beq_iff_eq, Bool.and_eq_false_iff, beq_eq_false_iff_ne, ne_eq, not_and_or, and_self]

/-- The assignment from an allocator for another type is undefined behaviour. -/
theorem C81_assignment : assignOther = .ub := rfl

/-- `double`, aligned to cache lines: two arrays, one of them released. -/
def doubleTy : Ty := ⟨0, 8, 8, true⟩

def sampleOps : List Op := [.get 100 (some 4096), .get 3 (some 8192), .release 1, .get 5 (some 4096)]

example : ∃ s, run doubleTy 64 ⟨[], [⟨1024, 100, 16⟩]⟩ sampleOps = .ok s ∧ s.held = [(4096, 5), (8192, 3)] ∧
    GoodArrays doubleTy 64 [⟨1024, 100, 16⟩] s := by
  have hc : Contract doubleTy 64 ⟨[], [⟨1024, 100, 16⟩]⟩ sampleOps := by
    refine ⟨fun n a h => ?_, fun s1 h1 => ⟨fun n a h => ?_, fun s2 h2 => ⟨fun n a h => by simp at h, fun s3 h3 => ⟨fun n a h => ?_,
      fun _ _ => trivial⟩⟩⟩⟩
    · cases h
      exact ⟨by norm_num, by norm_num, by simp [Apart, doubleTy, cookie]⟩
    · cases h
      cases h1
      exact ⟨by norm_num, by norm_num, by simp [Apart, doubleTy, cookie]⟩
    · cases h
      cases h1
      cases h2
      cases h3
      exact ⟨by norm_num, by norm_num, by simp [Apart, doubleTy, cookie]⟩
  rcases C81_history_partial rfl (by decide) (by decide) (by decide) (C81_start _ _ _) sampleOps hc with ⟨e, _⟩ | ⟨s, e, h⟩
  · cases e
  · have e' : run doubleTy 64 ⟨[], [⟨1024, 100, 16⟩]⟩ sampleOps = .ok ⟨[(4096, 5), (8192, 3)],
      [⟨4096, 40, 64⟩, ⟨8192, 24, 64⟩, ⟨1024, 100, 16⟩]⟩ := rfl
    rw [e'] at e
    cases e
    exact ⟨_, e', rfl, h⟩

/-- A type with a destructor: an array of three strings is not aligned, and cannot be released. -/
example : allocate ⟨1, 32, 8, false⟩ 64 [] 3 (some 4096) = .ok ([⟨4096, 104, 64⟩], 4104) ∧
    deallocate 64 [⟨4096, 104, 64⟩] 4104 3 = .ub := ⟨rfl, rfl⟩

end DDC.Props
