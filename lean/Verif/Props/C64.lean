import Verif.Model.RoundedReducer
import Verif.Spec.Float
import Verif.Lemmas.Scan
import Verif.Props.C22
import Verif.Props.C23

/-!
# C64 — reductions and scans of floating-point numbers

The rounded operations are not associative, so the results depend on the schedule.  `Combines` says what all schedules
have in common; the error bounds follow from it.
-/

namespace DDC.Spec

/-- `v` is obtained from the values of the list, in their order, by combining neighbours with `op` in some way; any
number of units `e` may be thrown in. -/
inductive Combines {T : Type} (op : T → T → T) (e : T) : List T → T → Prop
  | unit : Combines op e [] e
  | one (x : T) : Combines op e [x] x
  | join {l m : List T} {a b : T} : Combines op e l a → Combines op e m b → Combines op e (l ++ m) (op a b)

end DDC.Spec

namespace DDC.Props

open Tup Spec Scan
open Support hiding tags

variable {τ : Type} [DecidableEq τ] {T : Type}

/-! ## What every schedule does -/

theorem Combines.foldl {op : T → T → T} {e : T} {l : List T} {a : T} (h : Combines op e l a) (m : List T) :
    Combines op e (l ++ m) (m.foldl op a) := by
  induction m generalizing l a with
  | nil => simpa using h
  | cons x m ih =>
    have := ih (Combines.join h (.one x))
    rwa [List.append_assoc] at this

private theorem leaf_combines (S : Support τ) (op : T → T → T) (e : T) (g : Elem τ → T) (l : List (List I64))
    (es : List (Elem τ)) (h : l.mapM (adapter S) = .ok es) (a : T) :
    l.foldlM (reduceAdapter S (fun a b => .ok (op a b)) (fun e => .ok (g e))) a = .ok ((es.map g).foldl op a) := by
  induction l generalizing es a with
  | nil =>
    have : es = [] := (Res.ok.inj h).symm
    subst this; rfl
  | cons x l ih =>
    rw [List.mapM_cons] at h
    obtain ⟨y, h1, h⟩ := Res.bind_eq_ok.1 h
    obtain ⟨ys, h2, h⟩ := Res.bind_eq_ok.1 h
    have h : es = y :: ys := (Res.ok.inj h).symm
    subst h
    rw [List.foldlM_cons]
    simp only [reduceAdapter, h1, Res.ok_bind]
    exact ih ys h2 (op a (g y))

private theorem plan_combines (S : Support τ) (op : T → T → T) (e : T) (g : Elem τ → T) (p : Plan)
    (es : List (Elem τ)) (h : p.ids.mapM (adapter S) = .ok es) :
    ∃ v, runPlan S ⟨e, op⟩ (fun a b => .ok (op a b)) (fun e => .ok (g e)) p = .ok v ∧ Combines op e (es.map g) v := by
  induction p generalizing es with
  | leaf l =>
    refine ⟨_, leaf_combines S op e g l es h e, ?_⟩
    simpa using Combines.foldl (Combines.unit (op := op) (e := e)) (es.map g)
  | join l r ihl ihr =>
    simp only [Plan.ids, List.mapM_append] at h
    obtain ⟨xs, h1, h⟩ := Res.bind_eq_ok.1 h
    obtain ⟨ys, h2, h⟩ := Res.bind_eq_ok.1 h
    have h : es = xs ++ ys := (Res.ok.inj h).symm
    subst h
    obtain ⟨a, a1, a2⟩ := ihl xs h1
    obtain ⟨b, b1, b2⟩ := ihr ys h2
    refine ⟨op a b, ?_, ?_⟩
    · simp only [runPlan, a1, b1, Res.ok_bind, Res.pure_eq]
    · rw [List.map_append]; exact .join a2 b2

/-- `parallel_transform_reduce` with any operation at all, any domain, any schedule: it ends and returns some combination
of the transformed elements, each taken once. -/
theorem C64_any_plan {S : Support τ} {l : List (Elem τ)} (hS : Elements S l) {n : Vect τ} (hn : S.extents = .ok n)
    (op : T → T → T) (e : T) (g : Elem τ → T) (neutral : T) (p : Plan) (hp : p.ids.Perm (policy n.vals)) :
    ∃ v xs, parallelTransformReduce S neutral ⟨e, op⟩ (fun a b => .ok (op a b)) (fun e => .ok (g e)) p = .ok v ∧
      xs.Perm (l.map g) ∧ Combines op e xs v := by
  obtain ⟨ax, h1, h2, _, _⟩ := hS.grid
  have hax := adapter_policy h1
  have hn' : n = ax.map (fun a => (a.1, (BitVec.ofNat 64 a.2.length : I64))) := by
    have := h1.extents; rw [hn] at this; exact Res.ok.inj this
  subst hn'
  rw [vals_lengths] at hp
  obtain ⟨es, e1, e2⟩ := mapM_perm hp hax
  obtain ⟨v, v1, v2⟩ := plan_combines S op e g p es e1
  refine ⟨v, es.map g, ?_, (e2.trans h2).map g, v2⟩
  simp only [parallelTransformReduce, v1, Res.noexcept]

private theorem serial_combines {S : Support τ} {ax : List (τ × List U64)} (hg : Grid S ax) (op : T → T → T)
    (neutral : T) (g : Elem τ → T) :
    ∀ (post pre : List (τ × List U64)) (is : List I64) (e : Elem τ), ax = pre ++ post → Picks pre is e →
      ∃ v, transformReduceSerial S neutral (fun a b => .ok (op a b)) (fun e => .ok (g e))
        (post.map (fun a => BitVec.ofNat 64 a.2.length)) is = .ok v ∧
        Combines op neutral ((cart post).map (fun e' => g (e ++ e'))).reverse v := by
  intro post
  induction post with
  | nil =>
    intro pre is e hax hp
    simp only [List.append_nil] at hax
    refine ⟨g e, ?_, ?_⟩
    · simp only [List.map_nil, transformReduceSerial, leaf, hg.tags]
      rw [hg.pick is e (hax ▸ hp)]
      rfl
    · simp only [cart, List.map_cons, List.append_nil, List.map_nil, List.reverse_singleton]
      exact .one _
  | cons a post ih =>
    intro pre is e hax hp
    obtain ⟨t, l⟩ := a
    have hl : l.length < 2 ^ 63 := hg.small (t, l) (by simp [hax])
    simp only [List.map_cons, transformReduceSerial, cart]
    rw [loop_zero, toInt_ofNat_small hl, Int.toNat_natCast]
    -- what each line gives
    have hv : ∀ (i : Nat) x, l[i]? = some x → ∃ v, transformReduceSerial S neutral (fun a b => .ok (op a b))
        (fun e => .ok (g e)) (post.map (fun a => BitVec.ofNat 64 a.2.length))
          (is ++ [BitVec.ofInt 64 (i : Int)]) = .ok v ∧
        Combines op neutral ((cart post).map (fun e' => g (e ++ [(t, x)] ++ e'))).reverse v := by
      intro i x hx
      have hi : i < l.length := (List.getElem?_eq_some_iff.1 hx).1
      exact ih (pre ++ [(t, l)]) _ (e ++ [(t, x)]) (by simp [hax])
        (picks_append hp (by rw [toNat_ofInt_small (by omega)]; exact hx))
    have key : ∀ m, m ≤ l.length → ∃ v, (List.range m).foldlM (fun (r : T) (i : Nat) => do
        let x ← transformReduceSerial S neutral (fun a b => .ok (op a b))
          (fun e => .ok (g e)) (post.map (fun a : τ × List U64 => BitVec.ofNat 64 a.2.length)) (is ++ [BitVec.ofInt 64 (i : Int)])
        (fun a b => Res.ok (op a b)) x r) neutral = .ok v ∧
        Combines op neutral ((((l.take m).flatMap (fun x => (cart post).map (fun e' => (t, x) :: e'))).map
          (fun e' => g (e ++ e'))).reverse) v := by
      intro m
      induction m with
      | zero => intro _; exact ⟨neutral, rfl, .unit⟩
      | succ m ihm =>
        intro hm
        obtain ⟨r, r1, r2⟩ := ihm (by omega)
        have hx : l[m]? = some l[m] := List.getElem?_eq_getElem (by omega)
        obtain ⟨v, v1, v2⟩ := hv m _ hx
        refine ⟨op v r, ?_, ?_⟩
        · rw [List.range_succ, List.foldlM_append, r1, Res.ok_bind, List.foldlM_cons, v1, Res.ok_bind]
          rfl
        · have hjoin := Combines.join v2 r2
          rw [List.take_add_one, hx]
          simp only [Option.toList_some, List.flatMap_append, List.flatMap_singleton, List.map_append, List.reverse_append]
          simpa [List.map_map, Function.comp_def] using hjoin
    obtain ⟨v, v1, v2⟩ := key l.length le_rfl
    rw [List.take_length] at v2
    exact ⟨v, v1, v2⟩

/-- `host_transform_reduce` likewise, started from the neutral element it is given. -/
theorem C64_host {S : Support τ} {l : List (Elem τ)} (hS : Elements S l) (op : T → T → T) (neutral : T)
    (g : Elem τ → T) :
    ∃ v xs, transformReduce S neutral (fun a b => .ok (op a b)) (fun e => .ok (g e)) = .ok v ∧
      xs.Perm (l.map g) ∧ Combines op neutral xs v := by
  obtain ⟨ax, h1, h2, _, _⟩ := hS.grid
  obtain ⟨v, v1, v2⟩ := serial_combines h1 op neutral g ax [] [] [] rfl trivial
  refine ⟨v, _, ?_, ?_, v2⟩
  · simp only [transformReduce, h1.extents, Res.ok_bind, vals_lengths]
    rw [v1]; rfl
  · exact ((cart ax).map g).reverse_perm.trans (h2.map g)

private theorem startAcc_combines {κ : Type} (op : T → T → T) (e : T) (x : κ → T) (B : List (List κ)) (l : List T)
    (a : T) (h : Combines op e l a) : Combines op e (l ++ B.flatten.map x) (startAcc ⟨e, op⟩ op x B a) := by
  induction B generalizing l a with
  | nil => simpa [startAcc] using h
  | cons b B ih =>
    have h1 : Combines op e (b.map x) ((b.map x).foldl op e) := by
      simpa using Combines.foldl (Combines.unit (op := op) (e := e)) (b.map x)
    have := ih _ _ (Combines.join h h1)
    rw [startAcc, List.foldl_cons, ← startAcc]
    simpa using this

/-- `parallel_transform_scan` with any operation at all and any choices of the backend: each cell receives some
combination of the transformed elements before it along the scanned dimension (and of its own for an inclusive scan), in
their order. -/
theorem C64_any_scan (kind : Kind) (op : T → T → T) (u : T) (h : Elem τ → T → T)
    (hx : kind = .exclusive → ∀ e v w, h e v = h e w)
    (choice : Elem τ → Choice (Elem τ) T) (hc : ∀ e line, LegalChoice (choice e) line)
    (d : Dom τ) (hd : Valid d) (q : τ) (hq : q ∈ tags d) (mem : Elem τ → T) :
    ∃ mem', transformScan kind ⟨u, op⟩ op (fun m e => h e (m e)) choice d q mem = .ok mem' ∧
      (∀ e, tags e = tags d → InBox d e →
        Combines op u ((run q (lo q d) (idx q e - lo q d + (if kind = .inclusive then 1 else 0)) e).map
          (fun e => h e (mem e))) (mem' e)) ∧
      (∀ e, ¬ (tags e = tags d ∧ InBox d e) → mem' e = mem e) := by
  obtain ⟨mem', h1, h2, h3⟩ := scan_core kind op ⟨u, op⟩ h hx choice hc d hd q hq mem
  refine ⟨mem', h1, ?_, h3⟩
  intro e ht hin
  obtain ⟨c, line, post, c1, c2, c3, c4, c5⟩ := h2 e ht hin
  obtain ⟨B, b, C, p, r, _, _, hpre, hv⟩ := (scanLine_block op ⟨u, op⟩ kind h hx c line c2 c1).2 _ e _ c3
  have hlo := (hin q hq).1
  have hst := startAcc_combines op u (fun e => h e (mem e)) B [] u .unit
  rw [c5, hv mem]
  cases kind with
  | inclusive =>
    have hrun : run q (lo q d) (idx q e - lo q d + 1) e = B.flatten ++ (p ++ [e]) := by
      rw [run, List.range_succ, List.map_append, ← run, hpre]
      simp only [List.map_cons, List.map_nil, List.append_assoc]
      rw [show lo q d + (idx q e - lo q d) = idx q e by omega, c4]
    rw [if_pos rfl, hrun, List.map_append]
    simpa [prefixValue] using Combines.foldl hst ((p ++ [e]).map (fun e => h e (mem e)))
  | exclusive =>
    rw [if_neg (by simp), Nat.add_zero, hpre, List.map_append]
    simpa [prefixValue] using Combines.foldl hst (p.map (fun e => h e (mem e)))

/-! ## The error of any combination -/

variable {fl : Rat → Rat}

private theorem pow_mono {m n : Nat} (h : m ≤ n) : ((1 : Rat) + 1 / 2 ^ 53) ^ m ≤ (1 + 1 / 2 ^ 53) ^ n :=
  pow_le_pow_right₀ (by norm_num) h

theorem sum_abs_nonneg (l : List Rat) : 0 ≤ (l.map (fun x => |x|)).sum :=
  List.sum_nonneg (by intro x hx; obtain ⟨y, _, rfl⟩ := List.mem_map.1 hx; exact abs_nonneg y)

theorem abs_sum_le (l : List Rat) : |l.sum| ≤ (l.map (fun x => |x|)).sum := by
  induction l with
  | nil => simp
  | cons x l ih => simp only [List.sum_cons, List.map_cons]; exact (abs_add_le _ _).trans (by linarith)

/-- Sums: representable numbers, `n` of them, are added up to `((1 + 2⁻⁵³)^(n-1) - 1) ∑ |x|`. -/
theorem combines_sum (hfl : RoundsNearest fl) {l : List Rat} {v : Rat} (h : Combines (Rounded.sum fl) 0 l v)
    (hl : ∀ x ∈ l, fl x = x) :
    fl v = v ∧ (l = [] → v = 0) ∧
      |v - l.sum| ≤ ((1 + 1 / 2 ^ 53) ^ (l.length - 1) - 1) * (l.map (fun x => |x|)).sum := by
  induction h with
  | unit => exact ⟨by simpa using hfl.exact 0 (by norm_num), fun _ => rfl, by simp⟩
  | one x => exact ⟨hl x (by simp), fun h => by simp at h, by simp⟩
  | @join l m a b _ _ iha ihb =>
    obtain ⟨a1, a2, a3⟩ := iha (fun x hx => hl x (by simp [hx]))
    obtain ⟨b1, b2, b3⟩ := ihb (fun x hx => hl x (by simp [hx]))
    refine ⟨hfl.idem _, ?_, ?_⟩
    · intro h
      obtain ⟨rfl, rfl⟩ := List.append_eq_nil_iff.1 h
      rw [a2 rfl, b2 rfl, Rounded.sum, add_zero]
      simpa using hfl.exact 0 (by norm_num)
    · rcases List.eq_nil_or_concat' l with rfl | ⟨l', x, rfl⟩
      · rw [a2 rfl, Rounded.sum, zero_add, b1]; simpa using b3
      rcases List.eq_nil_or_concat' m with rfl | ⟨m', y, rfl⟩
      · rw [b2 rfl, Rounded.sum, add_zero, a1]; simpa using a3
      obtain ⟨L, hL⟩ : ∃ L, L = l' ++ [x] := ⟨_, rfl⟩
      obtain ⟨M, hM⟩ : ∃ M, M = m' ++ [y] := ⟨_, rfl⟩
      have hL1 : 1 ≤ L.length := by rw [hL]; simp
      have hM1 : 1 ≤ M.length := by rw [hM]; simp
      rw [← hL] at a3 ⊢
      rw [← hM] at b3 ⊢
      have hSL := sum_abs_nonneg L
      have hSM := sum_abs_nonneg M
      have hAL := abs_sum_le L
      have hAM := abs_sum_le M
      have e := hfl.error (a + b)
      have q1 : ((1 : Rat) + 1 / 2 ^ 53) ^ (L.length - 1) ≤ (1 + 1 / 2 ^ 53) ^ (L.length + M.length - 2) :=
        pow_mono (by omega)
      have q2 : ((1 : Rat) + 1 / 2 ^ 53) ^ (M.length - 1) ≤ (1 + 1 / 2 ^ 53) ^ (L.length + M.length - 2) :=
        pow_mono (by omega)
      have q3 : ((1 : Rat) + 1 / 2 ^ 53) ^ (L.length + M.length - 1)
          = (1 + 1 / 2 ^ 53) ^ (L.length + M.length - 2) * (1 + 1 / 2 ^ 53) := by
        rw [← pow_succ]; congr 1; omega
      rw [List.sum_append, List.map_append, List.sum_append, List.length_append, q3, Rounded.sum]
      generalize ((1 : Rat) + 1 / 2 ^ 53) ^ (L.length + M.length - 2) = Q at q1 q2 ⊢
      generalize (L.map (fun x => |x|)).sum = SL at *
      generalize (M.map (fun x => |x|)).sum = SM at *
      have e1 : |a - L.sum| ≤ (Q - 1) * SL := a3.trans (mul_le_mul_of_nonneg_right (by linarith) hSL)
      have e2 : |b - M.sum| ≤ (Q - 1) * SM := b3.trans (mul_le_mul_of_nonneg_right (by linarith) hSM)
      have e3 : |a + b - (L.sum + M.sum)| ≤ (Q - 1) * (SL + SM) := by
        have : a + b - (L.sum + M.sum) = (a - L.sum) + (b - M.sum) := by ring
        rw [this]; exact (abs_add_le _ _).trans (by linarith)
      have e4 : |a + b| ≤ Q * (SL + SM) := by
        have h1 : a + b = (a + b - (L.sum + M.sum)) + (L.sum + M.sum) := by ring
        rw [h1]
        refine (abs_add_le _ _).trans ?_
        have := abs_add_le L.sum M.sum
        linarith
      have h2 : fl (a + b) - (L.sum + M.sum) = (fl (a + b) - (a + b)) + (a + b - (L.sum + M.sum)) := by ring
      rw [h2]
      refine (abs_add_le _ _).trans ?_
      have : |a + b| / 2 ^ 53 ≤ Q * (SL + SM) / 2 ^ 53 := by gcongr
      linarith

/-- Products: the relative error is at most `(1 + 2⁻⁵³)^(n-1) - 1`. -/
theorem combines_prod (hfl : RoundsNearest fl) {l : List Rat} {v : Rat} (h : Combines (Rounded.prod fl) 1 l v)
    (hl : ∀ x ∈ l, fl x = x) :
    fl v = v ∧ (l = [] → v = 1) ∧ |v - l.prod| ≤ ((1 + 1 / 2 ^ 53) ^ (l.length - 1) - 1) * |l.prod| := by
  induction h with
  | unit => exact ⟨by simpa using hfl.exact 1 (by norm_num), fun _ => rfl, by simp⟩
  | one x => exact ⟨hl x (by simp), fun h => by simp at h, by simp⟩
  | @join l m a b _ _ iha ihb =>
    obtain ⟨a1, a2, a3⟩ := iha (fun x hx => hl x (by simp [hx]))
    obtain ⟨b1, b2, b3⟩ := ihb (fun x hx => hl x (by simp [hx]))
    refine ⟨hfl.idem _, ?_, ?_⟩
    · intro h
      obtain ⟨rfl, rfl⟩ := List.append_eq_nil_iff.1 h
      rw [a2 rfl, b2 rfl, Rounded.prod, mul_one]
      simpa using hfl.exact 1 (by norm_num)
    · rcases List.eq_nil_or_concat' l with rfl | ⟨l', x, rfl⟩
      · rw [a2 rfl, Rounded.prod, one_mul, b1]; simpa using b3
      rcases List.eq_nil_or_concat' m with rfl | ⟨m', y, rfl⟩
      · rw [b2 rfl, Rounded.prod, mul_one, a1]; simpa using a3
      obtain ⟨L, hL⟩ : ∃ L, L = l' ++ [x] := ⟨_, rfl⟩
      obtain ⟨M, hM⟩ : ∃ M, M = m' ++ [y] := ⟨_, rfl⟩
      have hL1 : 1 ≤ L.length := by rw [hL]; simp
      have hM1 : 1 ≤ M.length := by rw [hM]; simp
      rw [← hL] at a3 ⊢
      rw [← hM] at b3 ⊢
      have e := hfl.error (a * b)
      have hP1 : (1 : Rat) ≤ (1 + 1 / 2 ^ 53) ^ (L.length - 1) := one_le_pow₀ (by norm_num)
      have hQ1 : (1 : Rat) ≤ (1 + 1 / 2 ^ 53) ^ (M.length - 1) := one_le_pow₀ (by norm_num)
      have q3 : ((1 : Rat) + 1 / 2 ^ 53) ^ (L.length + M.length - 1)
          = (1 + 1 / 2 ^ 53) ^ (L.length - 1) * (1 + 1 / 2 ^ 53) ^ (M.length - 1) * (1 + 1 / 2 ^ 53) := by
        rw [← pow_add, ← pow_succ]; congr 1; omega
      rw [List.prod_append, List.length_append, q3, Rounded.prod, abs_mul]
      generalize ((1 : Rat) + 1 / 2 ^ 53) ^ (L.length - 1) = P at *
      generalize ((1 : Rat) + 1 / 2 ^ 53) ^ (M.length - 1) = Q at *
      generalize L.prod = A at *
      generalize M.prod = B at *
      have hA := abs_nonneg A
      have hB := abs_nonneg B
      have ha : |a| ≤ P * |A| := by
        have : a = (a - A) + A := by ring
        rw [this]; exact (abs_add_le _ _).trans (by linarith)
      have hb : |b| ≤ Q * |B| := by
        have : b = (b - B) + B := by ring
        rw [this]; exact (abs_add_le _ _).trans (by linarith)
      have hab : |a * b| ≤ P * Q * (|A| * |B|) := by
        rw [abs_mul]
        calc |a| * |b| ≤ (P * |A|) * (Q * |B|) := mul_le_mul ha hb (abs_nonneg _) (by positivity)
          _ = _ := by ring
      have e3 : |a * b - A * B| ≤ (P * Q - 1) * (|A| * |B|) := by
        have h1 : a * b - A * B = (a - A) * b + A * (b - B) := by ring
        rw [h1]
        refine (abs_add_le _ _).trans ?_
        rw [abs_mul, abs_mul]
        have i1 : |a - A| * |b| ≤ ((P - 1) * |A|) * (Q * |B|) :=
          mul_le_mul a3 hb (abs_nonneg _) (mul_nonneg (by linarith) hA)
        have i2 : |A| * |b - B| ≤ |A| * ((Q - 1) * |B|) := mul_le_mul_of_nonneg_left b3 hA
        calc _ ≤ ((P - 1) * |A|) * (Q * |B|) + |A| * ((Q - 1) * |B|) := add_le_add i1 i2
          _ = _ := by ring
      have h2 : fl (a * b) - A * B = (fl (a * b) - a * b) + (a * b - A * B) := by ring
      rw [h2]
      refine (abs_add_le _ _).trans ?_
      have : |a * b| / 2 ^ 53 ≤ P * Q * (|A| * |B|) / 2 ^ 53 := by gcongr
      linarith

/-- Integers whose absolute values have a sum of at most 53 bits are added exactly. -/
theorem combines_integers (hfl : RoundsAll fl) {l : List Rat} {v : Rat} (h : Combines (Rounded.sum fl) 0 l v)
    (hl : ∀ x ∈ l, ∃ m : Int, x = m) (hs : (l.map (fun x => |x|)).sum ≤ 2 ^ 53) :
    v = l.sum ∧ ∃ m : Int, l.sum = m := by
  induction h with
  | unit => exact ⟨rfl, 0, by simp⟩
  | one x => exact ⟨by simp, by simpa using hl x (by simp)⟩
  | @join l m a b _ _ iha ihb =>
    have hSL := sum_abs_nonneg l
    have hSM := sum_abs_nonneg m
    have habs := abs_sum_le (l ++ m)
    have hs' := hs
    rw [List.map_append, List.sum_append] at hs
    obtain ⟨rfl, i, hi⟩ := iha (fun x hx => hl x (by simp [hx])) (by linarith)
    obtain ⟨rfl, j, hj⟩ := ihb (fun x hx => hl x (by simp [hx])) (by linarith)
    rw [List.sum_append] at habs ⊢
    refine ⟨?_, i + j, by rw [hi, hj]; push_cast; rfl⟩
    rw [Rounded.sum, hi, hj]
    have h1 : |((i + j : Int) : Rat)| ≤ ((2 ^ 53 : Int) : Rat) := by
      push_cast; rw [← hi, ← hj]; exact habs.trans hs'
    have := hfl.exact (i + j) (by
      rw [← Int.cast_abs] at h1
      exact Int.cast_le.1 h1)
    push_cast at this
    exact this

/-! ## The algorithms -/

/-- `parallel_transform_reduce` with `sum` on floating-point numbers, whatever the schedule. -/
theorem C64_sum_partial (hfl : RoundsNearest fl) {S : Support τ} {l : List (Elem τ)} (hS : Elements S l) {n : Vect τ}
    (hn : S.extents = .ok n) (g : Elem τ → Rat) (hg : ∀ e, fl (g e) = g e) (neutral : Rat) (p : Plan)
    (hp : p.ids.Perm (policy n.vals)) :
    ∃ v, parallelTransformReduce S neutral (Rounded.kokkosSum fl) (fun a b => .ok (Rounded.sum fl a b))
        (fun e => .ok (g e)) p = .ok v ∧
      |v - (l.map g).sum| ≤ ((1 + 1 / 2 ^ 53) ^ (l.length - 1) - 1) * (l.map (fun e => |g e|)).sum := by
  obtain ⟨v, xs, h1, h2, h3⟩ := C64_any_plan hS hn (Rounded.sum fl) 0 g neutral p hp
  refine ⟨v, h1, ?_⟩
  have := (combines_sum hfl h3 (fun x hx => by
    obtain ⟨e, _, rfl⟩ := List.mem_map.1 (h2.mem_iff.1 hx); exact hg e)).2.2
  rw [h2.sum_eq, h2.length_eq, (h2.map (fun x => |x|)).sum_eq] at this
  simpa [Function.comp_def] using this

/-- `host_transform_reduce` with `sum`, started from zero. -/
theorem C64_sum_host_partial (hfl : RoundsNearest fl) {S : Support τ} {l : List (Elem τ)} (hS : Elements S l)
    (g : Elem τ → Rat) (hg : ∀ e, fl (g e) = g e) :
    ∃ v, transformReduce S 0 (fun a b => .ok (Rounded.sum fl a b)) (fun e => .ok (g e)) = .ok v ∧
      |v - (l.map g).sum| ≤ ((1 + 1 / 2 ^ 53) ^ (l.length - 1) - 1) * (l.map (fun e => |g e|)).sum := by
  obtain ⟨v, xs, h1, h2, h3⟩ := C64_host hS (Rounded.sum fl) 0 g
  refine ⟨v, h1, ?_⟩
  have := (combines_sum hfl h3 (fun x hx => by
    obtain ⟨e, _, rfl⟩ := List.mem_map.1 (h2.mem_iff.1 hx); exact hg e)).2.2
  rw [h2.sum_eq, h2.length_eq, (h2.map (fun x => |x|)).sum_eq] at this
  simpa [Function.comp_def] using this

/-- `parallel_transform_reduce` with `prod`: a relative error, whatever the schedule. -/
theorem C64_prod_partial (hfl : RoundsNearest fl) {S : Support τ} {l : List (Elem τ)} (hS : Elements S l) {n : Vect τ}
    (hn : S.extents = .ok n) (g : Elem τ → Rat) (hg : ∀ e, fl (g e) = g e) (neutral : Rat) (p : Plan)
    (hp : p.ids.Perm (policy n.vals)) :
    ∃ v, parallelTransformReduce S neutral (Rounded.kokkosProd fl) (fun a b => .ok (Rounded.prod fl a b))
        (fun e => .ok (g e)) p = .ok v ∧
      |v - (l.map g).prod| ≤ ((1 + 1 / 2 ^ 53) ^ (l.length - 1) - 1) * |(l.map g).prod| := by
  obtain ⟨v, xs, h1, h2, h3⟩ := C64_any_plan hS hn (Rounded.prod fl) 1 g neutral p hp
  refine ⟨v, h1, ?_⟩
  have := (combines_prod hfl h3 (fun x hx => by
    obtain ⟨e, _, rfl⟩ := List.mem_map.1 (h2.mem_iff.1 hx); exact hg e)).2.2
  rw [h2.prod_eq, h2.length_eq] at this
  simpa using this

/-- Integers are added exactly as long as the sum of their absolute values has at most 53 bits: the result is the same for
every schedule and on the host. -/
theorem C64_integers (hfl : RoundsAll fl) {S : Support τ} {l : List (Elem τ)} (hS : Elements S l) {n : Vect τ}
    (hn : S.extents = .ok n) (g : Elem τ → Int) (hg : (l.map (fun e => |g e|)).sum ≤ 2 ^ 53) (neutral : Rat) (p : Plan)
    (hp : p.ids.Perm (policy n.vals)) :
    parallelTransformReduce S neutral (Rounded.kokkosSum fl) (fun a b => .ok (Rounded.sum fl a b))
        (fun e => .ok (g e : Rat)) p = .ok (((l.map g).sum : Int) : Rat) ∧
    transformReduce S 0 (fun a b => .ok (Rounded.sum fl a b)) (fun e => .ok (g e : Rat))
      = .ok (((l.map g).sum : Int) : Rat) := by
  have hcast : (l.map (fun e => (g e : Rat))).sum = (((l.map g).sum : Int) : Rat) := by
    clear hg hS
    induction l with
    | nil => simp
    | cons a l ih => simp only [List.map_cons, List.sum_cons, ih]; push_cast; rfl
  have habs : (l.map (fun e => |(g e : Rat)|)).sum ≤ 2 ^ 53 := by
    have : (l.map (fun e => |(g e : Rat)|)).sum = (((l.map (fun e => |g e|)).sum : Int) : Rat) := by
      clear hg hcast hS
      induction l with
      | nil => simp
      | cons a l ih => simp only [List.map_cons, List.sum_cons, ih]; push_cast; rfl
    rw [this]
    exact_mod_cast hg
  have hxs : ∀ xs : List Rat, xs.Perm (l.map (fun e => (g e : Rat))) →
      (∀ x ∈ xs, ∃ m : Int, x = m) ∧ (xs.map (fun x => |x|)).sum ≤ 2 ^ 53 := by
    intro xs h2
    refine ⟨fun x hx => ?_, ?_⟩
    · obtain ⟨e, _, rfl⟩ := List.mem_map.1 (h2.mem_iff.1 hx); exact ⟨g e, rfl⟩
    · rw [(h2.map (fun x => |x|)).sum_eq]; simpa [Function.comp_def] using habs
  constructor
  · obtain ⟨v, xs, h1, h2, h3⟩ := C64_any_plan hS hn (Rounded.sum fl) 0 (fun e => (g e : Rat)) neutral p hp
    rw [show Rounded.kokkosSum fl = ⟨0, Rounded.sum fl⟩ from rfl, h1,
      (combines_integers hfl h3 (hxs xs h2).1 (hxs xs h2).2).1, h2.sum_eq, hcast]
  · obtain ⟨v, xs, h1, h2, h3⟩ := C64_host hS (Rounded.sum fl) 0 (fun e => (g e : Rat))
    rw [h1, (combines_integers hfl h3 (hxs xs h2).1 (hxs xs h2).2).1, h2.sum_eq, hcast]

/-- The scans with `sum`: each cell receives its prefix sum up to the error of that many additions, whatever the choices
of the backend. -/
theorem C64_scan_partial (hfl : RoundsNearest fl) (kind : Kind) (g : Elem τ → Rat) (hg : ∀ e, fl (g e) = g e)
    (choice : Elem τ → Choice (Elem τ) Rat) (hc : ∀ e line, LegalChoice (choice e) line)
    (d : Dom τ) (hd : Valid d) (q : τ) (hq : q ∈ tags d) (mem : Elem τ → Rat) :
    ∃ mem', transformScan kind (Rounded.kokkosSum fl) (Rounded.sum fl) (fun _ e => g e) choice d q mem = .ok mem' ∧
      (∀ e, tags e = tags d → InBox d e → ∀ m, m = idx q e - lo q d + (if kind = .inclusive then 1 else 0) →
        |mem' e - ((run q (lo q d) m e).map g).sum|
          ≤ ((1 + 1 / 2 ^ 53) ^ (m - 1) - 1) * ((run q (lo q d) m e).map (fun e => |g e|)).sum) ∧
      (∀ e, ¬ (tags e = tags d ∧ InBox d e) → mem' e = mem e) := by
  obtain ⟨mem', h1, h2, h3⟩ := C64_any_scan kind (Rounded.sum fl) 0 (fun e _ => g e) (fun _ _ _ _ => rfl) choice hc d hd
    q hq mem
  refine ⟨mem', h1, ?_, h3⟩
  intro e ht hin m hm
  have h := h2 e ht hin
  rw [← hm] at h
  have := (combines_sum hfl h (fun x hx => by
    obtain ⟨e, _, rfl⟩ := List.mem_map.1 hx; exact hg e)).2.2
  simpa [Function.comp_def, run] using this

/-- The result does depend on the schedule: with the rounding of IEEE 754, the numbers `1`, `2⁻⁵³` and `2⁻⁵³` have the sum
`1` when added one after the other and `1 + 2⁻⁵²` when the last two are added first. -/
theorem C64_schedules_differ :
    let S := Dom.support ([('x', (0, 3))] : Dom Char)
    let g : Elem Char → Rat := fun e => if e = [('x', 0)] then 1 else 1 / 2 ^ 53
    let p1 : Plan := .leaf [[0], [1], [2]]
    let p2 : Plan := .join (.leaf [[0]]) (.leaf [[1], [2]])
    S.extents = .ok [('x', 3)] ∧ p1.ids.Perm (policy [3]) ∧ p2.ids.Perm (policy [3]) ∧
    parallelTransformReduce S 0 (Rounded.kokkosSum round53) (fun a b => .ok (Rounded.sum round53 a b))
      (fun e => .ok (g e)) p1 = .ok 1 ∧
    parallelTransformReduce S 0 (Rounded.kokkosSum round53) (fun a b => .ok (Rounded.sum round53 a b))
      (fun e => .ok (g e)) p2 = .ok (1 + 1 / 2 ^ 52) := by
  refine ⟨by decide, by decide +kernel, by decide +kernel, by decide +kernel, by decide +kernel⟩

/-- So two runs may differ, but by no more than twice the error of one. -/
theorem C64_two_runs_partial (hfl : RoundsNearest fl) {S : Support τ} {l : List (Elem τ)} (hS : Elements S l)
    {n : Vect τ} (hn : S.extents = .ok n) (g : Elem τ → Rat) (hg : ∀ e, fl (g e) = g e) (neutral neutral' : Rat)
    (p p' : Plan) (hp : p.ids.Perm (policy n.vals)) (hp' : p'.ids.Perm (policy n.vals)) :
    ∃ v v', parallelTransformReduce S neutral (Rounded.kokkosSum fl) (fun a b => .ok (Rounded.sum fl a b))
        (fun e => .ok (g e)) p = .ok v ∧
      parallelTransformReduce S neutral' (Rounded.kokkosSum fl) (fun a b => .ok (Rounded.sum fl a b))
        (fun e => .ok (g e)) p' = .ok v' ∧
      |v - v'| ≤ 2 * (((1 + 1 / 2 ^ 53) ^ (l.length - 1) - 1) * (l.map (fun e => |g e|)).sum) := by
  obtain ⟨v, h1, h2⟩ := C64_sum_partial hfl hS hn g hg neutral p hp
  obtain ⟨v', h1', h2'⟩ := C64_sum_partial hfl hS hn g hg neutral' p' hp'
  refine ⟨v, v', h1, h1', ?_⟩
  rw [abs_le] at h2 h2' ⊢
  constructor <;> linarith [h2.1, h2.2, h2'.1, h2'.2]

/-- `min` and `max` do not round: the result is exact for every schedule.  `lowest` and `highest` are the extreme values
of the type, the identities of `Kokkos::Max` and `Kokkos::Min`. -/
theorem C64_min_max {R : Type} [LinearOrder R] (lowest highest : R) {S : Support τ} {l : List (Elem τ)}
    (hS : Elements S l) {n : Vect τ} (hn : S.extents = .ok n) (g : Elem τ → R)
    (hg : ∀ e, lowest ≤ g e ∧ g e ≤ highest) (neutral : R) (p : Plan) (hp : p.ids.Perm (policy n.vals)) (hl : l ≠ []) :
    (∃ v, parallelTransformReduce S neutral ⟨highest, fun dest src => if src < dest then src else dest⟩
        (fun a b => .ok (Reducer.min a b)) (fun e => .ok (g e)) p = .ok v ∧
      v ∈ l.map g ∧ ∀ e ∈ l, v ≤ g e) ∧
    (∃ v, parallelTransformReduce S neutral ⟨lowest, fun dest src => if src > dest then src else dest⟩
        (fun a b => .ok (Reducer.max a b)) (fun e => .ok (g e)) p = .ok v ∧
      v ∈ l.map g ∧ ∀ e ∈ l, g e ≤ v) := by
  have hlh : lowest ≤ highest := by
    obtain ⟨e0, _⟩ := List.exists_mem_of_ne_nil l hl
    exact (hg e0).1.trans (hg e0).2
  obtain ⟨hmin, hmax⟩ := C24_order lowest highest hlh
  have rmin : ∀ a b : R, Reducer.min a b = a ⊓ b := fun a b => by
    unfold Reducer.min; split
    · rename_i h; exact (inf_eq_left.2 h.le).symm
    · rename_i h; exact (inf_eq_right.2 (not_lt.1 h)).symm
  have rmax : ∀ a b : R, Reducer.max a b = a ⊔ b := fun a b => by
    unfold Reducer.max; split
    · rename_i h; exact (sup_eq_left.2 h.le).symm
    · rename_i h; exact (sup_eq_right.2 (not_lt.1 h)).symm
  constructor
  · refine ⟨_, C22_any_plan (k := ⟨highest, fun dest src => if src < dest then src else dest⟩) hS hn hmin ?_ g hg
      neutral p hp, ?_⟩
    · intro a b _ _
      rw [rmin]
      dsimp only
      split
      · rename_i h; exact (inf_eq_right.2 h.le).symm
      · rename_i h; exact (inf_eq_left.2 (not_lt.1 h)).symm
    · clear hS
      induction l with
      | nil => exact absurd rfl hl
      | cons a l ih =>
        simp only [List.map_cons, List.foldr_cons, rmin]
        by_cases hl' : l = []
        · subst hl'
          simp [inf_eq_left.2 (hg a).2]
        · obtain ⟨i1, i2⟩ := ih hl'
          generalize hw : (l.map g).foldr Reducer.min highest = w at i1 i2 ⊢
          constructor
          · rcases min_choice (g a) w with h | h
            · rw [show g a ⊓ w = g a from h]; simp
            · rw [show g a ⊓ w = w from h]; exact List.mem_cons_of_mem _ i1
          · intro e he
            rcases List.mem_cons.1 he with rfl | he
            · exact inf_le_left
            · exact inf_le_right.trans (i2 e he)
  · refine ⟨_, C22_any_plan (k := ⟨lowest, fun dest src => if src > dest then src else dest⟩) hS hn hmax ?_ g hg
      neutral p hp, ?_⟩
    · intro a b _ _
      rw [rmax]
      dsimp only
      split
      · rename_i h; exact (sup_eq_right.2 h.le).symm
      · rename_i h; exact (sup_eq_left.2 (not_lt.1 h)).symm
    · clear hS
      induction l with
      | nil => exact absurd rfl hl
      | cons a l ih =>
        simp only [List.map_cons, List.foldr_cons, rmax]
        by_cases hl' : l = []
        · subst hl'
          simp [sup_eq_left.2 (hg a).1]
        · obtain ⟨i1, i2⟩ := ih hl'
          generalize hw : (l.map g).foldr Reducer.max lowest = w at i1 i2 ⊢
          constructor
          · rcases max_choice (g a) w with h | h
            · rw [show g a ⊔ w = g a from h]; simp
            · rw [show g a ⊔ w = w from h]; exact List.mem_cons_of_mem _ i1
          · intro e he
            rcases List.mem_cons.1 he with rfl | he
            · exact le_sup_left
            · exact (i2 e he).trans le_sup_right

/-! Non-vacuity: three representable numbers on a domain of one dimension, with the rounding of IEEE 754. -/
example (p : Plan) (hp : p.ids.Perm (policy [3])) :
    ∃ v, parallelTransformReduce (Dom.support ([('x', (0, 3))] : Dom Char)) 0 (Rounded.kokkosSum round53)
        (fun a b => .ok (Rounded.sum round53 a b)) (fun e => .ok (round53 (idx 'x' e / 10))) p = .ok v ∧
      |v - (round53 (0 / 10) + (round53 (1 / 10) + round53 (2 / 10)))| ≤ 1 / 2 ^ 53 := by
  have hd : Valid ([('x', (0, 3))] : Dom Char) := by
    refine ⟨by decide, ?_⟩
    intro q hq
    simp only [Tup.tags, List.map_cons, List.map_nil, List.mem_cons, List.not_mem_nil, or_false] at hq
    rcases hq with rfl; decide
  have hl : Elements (Dom.support ([('x', (0, 3))] : Dom Char)) [[('x', 0)], [('x', 1)], [('x', 2)]] := by
    refine .contiguous hd (by decide) ?_
    intro e
    rw [← mem_cart_axes hd]
    have : cart (axes ([('x', (0, 3))] : Dom Char)) = [[('x', 0)], [('x', 1)], [('x', 2)]] := by decide
    rw [this]
  obtain ⟨v, h1, h2⟩ := C64_sum_partial round53_nearest hl (n := [('x', 3)]) (by decide)
    (fun e => round53 (idx 'x' e / 10)) (fun e => round53_nearest.idem _) 0 p hp
  refine ⟨v, h1, ?_⟩
  have hb : (((1 : Rat) + 1 / 2 ^ 53) ^ (([[('x', 0)], [('x', 1)], [('x', 2)]] : List (Elem Char)).length - 1) - 1) *
      (([[('x', 0)], [('x', 1)], [('x', 2)]] : List (Elem Char)).map (fun e => |round53 (idx 'x' e / 10)|)).sum
      ≤ 1 / 2 ^ 53 := by decide +kernel
  refine le_trans ?_ hb
  have hs : (([[('x', 0)], [('x', 1)], [('x', 2)]] : List (Elem Char)).map (fun e => round53 (idx 'x' e / 10))).sum
      = round53 (0 / 10) + (round53 (1 / 10) + round53 (2 / 10)) := by decide +kernel
  rw [hs] at h2
  exact h2

end DDC.Props
