import Verif.Lemmas.Reducer
import Verif.Lemmas.Enumerate
import Mathlib.Data.List.Nodup

/-!
# Scans: closed forms
-/

namespace DDC

open Tup Spec

/-- Steps that own disjoint sets of cells: each cell ends with the value given to it by
its owner, run on the initial memory. -/
theorem foldl_disjoint {ι κ T : Type} (step : ι → (κ → T) → (κ → T)) (cells : ι → κ → Prop)
    (l : List ι) (hframe : ∀ i ∈ l, ∀ mem e, ¬ cells i e → step i mem e = mem e)
    (hlocal : ∀ i ∈ l, ∀ mem mem', (∀ e, cells i e → mem e = mem' e) →
      ∀ e, cells i e → step i mem e = step i mem' e)
    (hd : l.Pairwise (fun i j => ∀ e, cells i e → ¬ cells j e)) (mem : κ → T) :
    (∀ i ∈ l, ∀ e, cells i e → l.foldl (fun m i => step i m) mem e = step i mem e) ∧
    (∀ e, (∀ i ∈ l, ¬ cells i e) → l.foldl (fun m i => step i m) mem e = mem e) := by
  induction l generalizing mem with
  | nil => simp
  | cons j l ih =>
    rw [List.pairwise_cons] at hd
    obtain ⟨ih1, ih2⟩ := ih (fun i hi => hframe i (by simp [hi])) (fun i hi => hlocal i (by simp [hi])) hd.2 (step j mem)
    simp only [List.foldl_cons]
    constructor
    · intro i hi e he
      rcases List.mem_cons.1 hi with rfl | hi
      · exact ih2 e (fun k hk => hd.1 k hk e he)
      · rw [ih1 i hi e he]
        refine hlocal i (by simp [hi]) _ _ ?_ e he
        intro e' he'
        exact hframe j (by simp) mem e' (fun h => hd.1 i hi e' h he')
    · intro e he
      rw [ih2 e (fun i hi => he i (by simp [hi])), hframe j (by simp) mem e (he j (by simp))]

namespace Scan

variable {T κ : Type} [DecidableEq κ]

/-- What a scan writes at a position with `pre` before it. -/
def prefixValue (kind : Kind) (op : T → T → T) (acc : T) (x : κ → T) (pre : List κ) (e : κ) : T :=
  match kind with
  | .inclusive => ((pre ++ [e]).map x).foldl op acc
  | .exclusive => (pre.map x).foldl op acc

theorem run_final (kind : Kind) (op : T → T → T) (h : κ → T → T)
    (hx : kind = .exclusive → ∀ e v w, h e v = h e w) (block : List κ) (hnd : block.Nodup) (acc : T) (mem : κ → T) :
    let r := block.foldl (adapter kind op (fun m e => h e (m e)) true) (acc, mem)
    r.1 = (block.map (fun e => h e (mem e))).foldl op acc ∧ (∀ e, e ∉ block → r.2 e = mem e) ∧
    (∀ pre e post, block = pre ++ e :: post →
      r.2 e = prefixValue kind op acc (fun e => h e (mem e)) pre e) := by
  induction block generalizing acc mem with
  | nil => simp
  | cons e0 block ih =>
    rw [List.nodup_cons] at hnd
    -- the state after one step
    obtain ⟨mem1, hs, hm1, hm2⟩ : ∃ mem1, adapter kind op (fun m e => h e (m e)) true (acc, mem) e0
        = (op acc (h e0 (mem e0)), mem1) ∧ (∀ e, e ≠ e0 → mem1 e = mem e) ∧
          mem1 e0 = prefixValue kind op acc (fun e => h e (mem e)) [] e0 := by
      cases kind with
      | inclusive =>
        refine ⟨fun j => if j = e0 then op acc (h e0 (mem e0)) else mem j, by simp [adapter], ?_, ?_⟩
        · intro e he; simp [he]
        · simp [prefixValue]
      | exclusive =>
        refine ⟨fun j => if j = e0 then acc else mem j, ?_, ?_, ?_⟩
        · simp only [adapter]
          simp only [and_self, if_true, reduceCtorEq, false_and, if_false]
          rw [hx rfl e0 acc (mem e0)]
        · intro e he; simp [he]
        · simp [prefixValue]
    have hne : ∀ e ∈ block, e ≠ e0 := by rintro e he rfl; exact hnd.1 he
    have hcongr : block.map (fun e => h e (mem1 e)) = block.map (fun e => h e (mem e)) :=
      List.map_congr_left (fun e he => by rw [hm1 e (hne e he)])
    obtain ⟨i1, i2, i3⟩ := ih hnd.2 (op acc (h e0 (mem e0))) mem1
    simp only [List.foldl_cons, hs]
    refine ⟨?_, ?_, ?_⟩
    · rw [i1, hcongr]; rfl
    · intro e he
      rw [i2 e (fun h => he (by simp [h])), hm1 e (by rintro rfl; simp at he)]
    · intro pre e post hb
      cases pre with
      | nil =>
        simp only [List.nil_append, List.cons.injEq] at hb
        obtain ⟨rfl, rfl⟩ := hb
        rw [i2 _ hnd.1, hm2]
      | cons a pre =>
        simp only [List.cons_append, List.cons.injEq] at hb
        obtain ⟨rfl, hb⟩ := hb
        have hp : ∀ y ∈ pre ++ [e], h y (mem1 y) = h y (mem y) := by
          intro y hy
          rw [hm1 y (hne y (by rw [hb]; simp only [List.mem_append, List.mem_singleton, List.mem_cons] at hy ⊢; tauto))]
        rw [i3 pre e post hb]
        cases kind with
        | inclusive =>
          simp only [prefixValue, List.cons_append, List.map_cons, List.foldl_cons]
          rw [List.map_congr_left hp]
        | exclusive =>
          simp only [prefixValue, List.map_cons, List.foldl_cons]
          rw [List.map_congr_left (fun y hy => hp y (by simp [hy]))]

theorem blockTotal_eq (kind : Kind) (k : KReducer T) (op : T → T → T) (h : κ → T → T) (mem : κ → T)
    (block : List κ) :
    blockTotal kind k op (fun m e => h e (m e)) mem block = (block.map (fun e => h e (mem e))).foldl op k.identity := by
  have : ∀ acc, block.foldl (adapter kind op (fun m e => h e (m e)) false) (acc, mem)
      = ((block.map (fun e => h e (mem e))).foldl op acc, mem) := by
    intro acc
    induction block generalizing acc with
    | nil => rfl
    | cons e block ih => simp only [List.foldl_cons, List.map_cons]; rw [← ih]; simp [adapter]
  rw [blockTotal, this]

/-- The accumulator with which the second pass starts after the blocks `B`, for the transformed values `x`. -/
def startAcc (k : KReducer T) (op : T → T → T) (x : κ → T) (B : List (List κ)) (acc : T) : T :=
  B.foldl (fun acc b => k.join acc ((b.map x).foldl op k.identity)) acc

theorem starts_closed (kind : Kind) (k : KReducer T) (op : T → T → T) (h : κ → T → T) (mem : κ → T)
    (blocks : List (List κ)) (acc : T) :
    (starts kind k op (fun m e => h e (m e)) mem blocks acc).map Prod.fst = blocks ∧
    ∀ b a, (b, a) ∈ starts kind k op (fun m e => h e (m e)) mem blocks acc →
      ∃ B C, blocks = B ++ b :: C ∧ a = startAcc k op (fun e => h e (mem e)) B acc := by
  induction blocks generalizing acc with
  | nil => simp [starts]
  | cons b0 blocks ih =>
    obtain ⟨i1, i2⟩ := ih (k.join acc (blockTotal kind k op (fun m e => h e (m e)) mem b0))
    simp only [starts, List.map_cons, i1, true_and]
    intro b a hba
    rcases List.mem_cons.1 hba with h1 | h1
    · injection h1 with h1 h2
      subst h1 h2
      exact ⟨[], blocks, rfl, rfl⟩
    · obtain ⟨B, C, rfl, rfl⟩ := i2 b a h1
      refine ⟨b0 :: B, C, rfl, ?_⟩
      rw [blockTotal_eq, startAcc, startAcc, List.foldl_cons]

theorem startAcc_monoid {P : T → Prop} {op : T → T → T} {k : KReducer T} (hm : MonoidOn P op k.identity)
    (hj : ∀ a b, P a → P b → k.join a b = op a b) (x : κ → T) (hP : ∀ e, P (x e)) (B : List (List κ)) (acc : T)
    (ha : P acc) :
    startAcc k op x B acc = op acc (product op k.identity (B.flatten.map x)) := by
  have hPl : ∀ (l : List κ), ∀ z ∈ l.map x, P z := by
    intro l z hz
    obtain ⟨w, _, rfl⟩ := List.mem_map.1 hz
    exact hP w
  induction B generalizing acc with
  | nil => simp [startAcc, product, hm.right _ ha]
  | cons b0 B ih =>
    have hpt := hm.product_mem (hPl b0)
    have htot : (b0.map x).foldl op k.identity = product op k.identity (b0.map x) := by
      rw [hm.foldl_eq (hPl b0) hm.unit, hm.left _ hpt]
    rw [startAcc, List.foldl_cons, htot, hj _ _ ha hpt, ← startAcc, ih _ (hm.closed _ _ ha hpt),
      List.flatten_cons, List.map_append, hm.product_append (hPl _) (hPl _),
      hm.assoc _ _ _ ha hpt (hm.product_mem (hPl _))]

theorem nodup_split {α : Type} {p p' q q' : List α} {e : α} (h : p ++ e :: q = p' ++ e :: q')
    (hnd : (p ++ e :: q).Nodup) : p = p' ∧ q = q' := by
  induction p generalizing p' with
  | nil =>
    cases p' with
    | nil => simpa using h
    | cons a p' =>
      simp only [List.nil_append, List.cons_append, List.cons.injEq] at h
      obtain ⟨rfl, rfl⟩ := h
      simp at hnd
  | cons a p ih =>
    cases p' with
    | nil =>
      simp only [List.nil_append, List.cons_append, List.cons.injEq] at h
      obtain ⟨rfl, rfl⟩ := h
      simp at hnd
    | cons b p' =>
      simp only [List.cons_append, List.cons.injEq] at h
      obtain ⟨rfl, h⟩ := h
      obtain ⟨rfl, rfl⟩ := ih h (List.nodup_cons.1 (by simpa using hnd)).2
      exact ⟨rfl, rfl⟩

/-- The choices the backend may make on a given line: the blocks are consecutive pieces
of the line and each is run exactly once in the second pass. -/
structure _root_.DDC.Spec.LegalChoice (c : Choice κ T) (line : List κ) : Prop where
  blocks : (c.blocks line).flatten = line
  order : ∀ l, (c.order l).Perm l

/-- One line, without any assumption on the operation: the cell of `e` receives the fold of the elements before it in
its block, from the accumulator of the previous blocks. -/
theorem scanLine_block (op : T → T → T) (k : KReducer T) (kind : Kind) (h : κ → T → T)
    (hx : kind = .exclusive → ∀ e v w, h e v = h e w)
    (c : Choice κ T) (line : List κ) (hnd : line.Nodup) (hc : LegalChoice c line) :
    (∀ mem e, e ∉ line → scanLine kind k op (fun m e => h e (m e)) c line mem e = mem e) ∧
    (∀ pre e post, line = pre ++ e :: post →
      ∃ B b C p q, c.blocks line = B ++ b :: C ∧ b = p ++ e :: q ∧ pre = B.flatten ++ p ∧
        ∀ mem, scanLine kind k op (fun m e => h e (m e)) c line mem e
          = prefixValue kind op (startAcc k op (fun e => h e (mem e)) B k.identity) (fun e => h e (mem e)) p e) := by
  have hfl := hc.blocks
  have hndf : (c.blocks line).flatten.Nodup := by rw [hfl]; exact hnd
  have hbnd : ∀ b ∈ c.blocks line, b.Nodup := (List.nodup_flatten.1 hndf).1
  -- one run
  have key : ∀ mem, (∀ e, e ∉ line → scanLine kind k op (fun m e => h e (m e)) c line mem e = mem e) ∧
      (∀ b a e p q, (b, a) ∈ starts kind k op (fun m e => h e (m e)) mem (c.blocks line) k.identity →
        b = p ++ e :: q → scanLine kind k op (fun m e => h e (m e)) c line mem e
          = prefixValue kind op a (fun e => h e (mem e)) p e) := by
    intro mem
    obtain ⟨s1, _⟩ := starts_closed kind k op h mem (c.blocks line) k.identity
    have hperm := hc.order (starts kind k op (fun m e => h e (m e)) mem (c.blocks line) k.identity)
    generalize hL : starts kind k op (fun m e => h e (m e)) mem (c.blocks line) k.identity = L at *
    have hmem : ∀ i ∈ c.order L, i.1.Nodup := by
      intro i hi
      refine hbnd i.1 ?_
      rw [← s1]
      exact List.mem_map_of_mem (hperm.mem_iff.1 hi)
    have hdis : (c.order L).Pairwise (fun i j => ∀ e, e ∈ i.1 → ¬ e ∈ j.1) := by
      refine hperm.symm.pairwise ?_ ?_
      · have := (List.nodup_flatten.1 hndf).2
        rw [← s1, List.pairwise_map] at this
        exact this.imp (fun hij e he he' => hij he he')
      · intro i j hij e he he'
        exact hij e he' he
    obtain ⟨f1, f2⟩ := foldl_disjoint
      (fun (i : List κ × T) (m : κ → T) =>
        (i.1.foldl (adapter kind op (fun m e => h e (m e)) true) (i.2, m)).2)
      (fun i e => e ∈ i.1) (c.order L) (by
        intro i hi m e he
        exact (run_final kind op h hx i.1 (hmem i hi) i.2 m).2.1 e he) (by
        intro i hi m m' hmm e he
        obtain ⟨pre, post, hsplit⟩ := List.append_of_mem he
        have hz : ∀ y ∈ i.1, h y (m y) = h y (m' y) := fun y hy => by rw [hmm y hy]
        show ((i.1.foldl _ (i.2, m)).2 e) = ((i.1.foldl _ (i.2, m')).2 e)
        rw [(run_final kind op h hx i.1 (hmem i hi) i.2 m).2.2 pre e post hsplit,
          (run_final kind op h hx i.1 (hmem i hi) i.2 m').2.2 pre e post hsplit]
        cases kind with
        | inclusive =>
          simp only [prefixValue]
          rw [List.map_congr_left (fun y hy => hz y (by
            rw [hsplit]; simp only [List.mem_append, List.mem_singleton, List.mem_cons] at hy ⊢; tauto))]
        | exclusive =>
          simp only [prefixValue]
          rw [List.map_congr_left (fun y hy => hz y (by rw [hsplit]; simp [hy]))]) hdis mem
    have hscan : scanLine kind k op (fun m e => h e (m e)) c line mem
        = (c.order L).foldl (fun m i => (i.1.foldl (adapter kind op (fun m e => h e (m e)) true) (i.2, m)).2) mem := by
      simp only [scanLine, hL, finalPass]
    rw [hscan]
    constructor
    · intro e he
      refine f2 e ?_
      intro i hi hie
      refine he ?_
      rw [← hfl, List.mem_flatten]
      exact ⟨i.1, by rw [← s1]; exact List.mem_map_of_mem (hperm.mem_iff.1 hi), hie⟩
    · intro b a e p q hi hpq
      rw [f1 (b, a) (hperm.mem_iff.2 hi) e (by simp [hpq])]
      exact (run_final kind op h hx b (hmem _ (hperm.mem_iff.2 hi)) a mem).2.2 p e q hpq
  refine ⟨fun mem => (key mem).1, ?_⟩
  intro pre e post hline
  have he : e ∈ (c.blocks line).flatten := by rw [hfl, hline]; simp
  obtain ⟨b, hb, heb⟩ := List.mem_flatten.1 he
  obtain ⟨B, C, hB⟩ := List.append_of_mem hb
  obtain ⟨p, q, hpq⟩ := List.append_of_mem heb
  have hsplit : ∀ {B C : List (List κ)}, c.blocks line = B ++ b :: C →
      pre = B.flatten ++ p := by
    intro B C hB
    have : pre ++ e :: post = (B.flatten ++ p) ++ e :: (q ++ C.flatten) := by
      rw [← hline, ← hfl, hB, hpq]; simp
    exact (nodup_split this (by rw [← hline]; exact hnd)).1
  refine ⟨B, b, C, p, q, hB, hpq, hsplit hB, ?_⟩
  intro mem
  obtain ⟨s1, s2⟩ := starts_closed kind k op h mem (c.blocks line) k.identity
  rw [← s1] at hb
  obtain ⟨⟨b', a⟩, hi, hbb⟩ := List.mem_map.1 hb
  simp only at hbb
  subst hbb
  obtain ⟨B', C', hB', rfl⟩ := s2 b' a hi
  rw [(key mem).2 b' _ e p q hi hpq]
  -- the same block: non-empty and without repetition
  have hBB : B = B' := by
    have hnd' := hndf
    have hb'B : b' ∉ B := by
      intro hm
      rw [hB] at hnd'
      have := (List.nodup_flatten.1 hnd').2
      rw [List.pairwise_append] at this
      exact this.2.2 b' hm b' (by simp) heb heb
    have hb'B' : b' ∉ B' := by
      intro hm
      rw [hB'] at hnd'
      have := (List.nodup_flatten.1 hnd').2
      rw [List.pairwise_append] at this
      exact this.2.2 b' hm b' (by simp) heb heb
    have heq : B ++ b' :: C = B' ++ b' :: C' := by rw [← hB, hB']
    clear hB hB' hi s1 s2 hb
    induction B generalizing B' with
    | nil =>
      cases B' with
      | nil => rfl
      | cons x B' =>
        simp only [List.nil_append, List.cons_append, List.cons.injEq] at heq
        exact absurd (by simp [heq.1]) hb'B'
    | cons y B ih =>
      cases B' with
      | nil =>
        simp only [List.nil_append, List.cons_append, List.cons.injEq] at heq
        exact absurd (by simp [heq.1]) hb'B
      | cons x B' =>
        simp only [List.cons_append, List.cons.injEq] at heq
        rw [heq.1, ih B' (fun hm => hb'B (by simp [hm])) (fun hm => hb'B' (by simp [hm])) heq.2]
  rw [hBB]

/-- What a line receives depends on the transformed values of that line only. -/
theorem scanLine_local (op : T → T → T) (k : KReducer T) (kind : Kind) (h : κ → T → T)
    (hx : kind = .exclusive → ∀ e v w, h e v = h e w)
    (c : Choice κ T) (line : List κ) (hnd : line.Nodup) (hc : LegalChoice c line) (m m' : κ → T)
    (hmm : ∀ e ∈ line, m e = m' e) (e : κ) (he : e ∈ line) :
    scanLine kind k op (fun m e => h e (m e)) c line m e = scanLine kind k op (fun m e => h e (m e)) c line m' e := by
  obtain ⟨pre, post, hsplit⟩ := List.append_of_mem he
  obtain ⟨B, b, C, p, q, hB, hb, hpre, hv⟩ := (scanLine_block op k kind h hx c line hnd hc).2 pre e post hsplit
  have hz : ∀ y ∈ line, h y (m y) = h y (m' y) := fun y hy => by rw [hmm y hy]
  have hst : ∀ (B : List (List κ)) acc, (∀ y ∈ B.flatten, y ∈ line) →
      startAcc k op (fun e => h e (m e)) B acc = startAcc k op (fun e => h e (m' e)) B acc := by
    intro B
    induction B with
    | nil => intro _ _; rfl
    | cons b B ih =>
      intro acc hin
      rw [startAcc, startAcc, List.foldl_cons, List.foldl_cons, ← startAcc, ← startAcc,
        List.map_congr_left (fun y hy => hz y (hin y (by simp [hy]))),
        ih _ (fun y hy => hin y (by rw [List.flatten_cons]; exact List.mem_append_right _ hy))]
  have hinB : ∀ y ∈ B.flatten, y ∈ line := by
    intro y hy; rw [hsplit, hpre]; simp only [List.mem_append]; exact .inl (.inl hy)
  have hinp : ∀ y ∈ p, y ∈ line := by
    intro y hy; rw [hsplit, hpre]; simp only [List.mem_append]; exact .inl (.inr hy)
  rw [hv m, hv m', hst B _ hinB]
  cases kind with
  | inclusive =>
    simp only [prefixValue]
    rw [List.map_congr_left (fun y hy => hz y (by
      rcases List.mem_append.1 hy with hy | hy
      · exact hinp y hy
      · rw [List.mem_singleton.1 hy]; exact he))]
  | exclusive =>
    simp only [prefixValue]
    rw [List.map_congr_left (fun y hy => hz y (hinp y hy))]

theorem scanLine_spec {P : T → Prop} {op : T → T → T} {k : KReducer T} (hm : MonoidOn P op k.identity)
    (hj : ∀ a b, P a → P b → k.join a b = op a b) (kind : Kind) (h : κ → T → T)
    (hx : kind = .exclusive → ∀ e v w, h e v = h e w) (hP : ∀ e v, P (h e v))
    (c : Choice κ T) (line : List κ) (hnd : line.Nodup) (hc : LegalChoice c line) (mem : κ → T) :
    (∀ e, e ∉ line → scanLine kind k op (fun m e => h e (m e)) c line mem e = mem e) ∧
    (∀ pre e post, line = pre ++ e :: post →
      scanLine kind k op (fun m e => h e (m e)) c line mem e
        = prefixValue kind op k.identity (fun e => h e (mem e)) pre e) := by
  obtain ⟨g1, g2⟩ := scanLine_block op k kind h hx c line hnd hc
  refine ⟨g1 mem, ?_⟩
  intro pre e post hline
  obtain ⟨B, b, C, p, q, _, _, rfl, hv⟩ := g2 pre e post hline
  rw [hv mem, startAcc_monoid hm hj _ (fun e => hP e _) B _ hm.unit]
  have hPl : ∀ (l : List κ), ∀ z ∈ l.map (fun e => h e (mem e)), P z := by
    intro l z hz
    obtain ⟨w, _, rfl⟩ := List.mem_map.1 hz
    exact hP w _
  cases kind with
  | inclusive =>
    simp only [prefixValue, List.append_assoc]
    rw [List.map_append (l₁ := B.flatten), List.foldl_append, hm.foldl_eq (hPl B.flatten) hm.unit]
  | exclusive =>
    simp only [prefixValue]
    rw [List.map_append (l₁ := B.flatten), List.foldl_append, hm.foldl_eq (hPl B.flatten) hm.unit]

end Scan
end DDC
