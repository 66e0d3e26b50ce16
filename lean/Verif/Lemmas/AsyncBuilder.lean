import Verif.Lemmas.AsyncLive

/-! # The live buffers of the builders -/

namespace DDC.Async

open Spec

variable {V : Type} {W : World V}

theorem good_launch {L : Nat → Prop} {i : Nat} {k : Kernel} (h : ∀ b ∈ k.touches, L b) : good L [.launch i k] :=
  ⟨h, trivial⟩

@[simp] theorem after_launch {L : Nat → Prop} {i : Nat} {k : Kernel} : after L [.launch i k] = L := rfl

theorem closure_ok {c : Closure} {h h' spline derivs : Nat} {L : Nat → Prop} (hs : L spline)
    (hd : c = .hermite → L derivs) : good L (closure c h h' spline derivs) ∧ after L (closure c h h' spline derivs) = L := by
  cases c <;> simp [closure, good, after, Kernel.touches, hs, hd]

theorem closure_on {c : Closure} {h h' spline derivs : Nat} : ∀ x ∈ closure c h h' spline derivs, x.On 0 := by
  cases c <;> simp [closure, Cmd.On]

theorem closure_within {c : Closure} {h h' spline derivs : Nat} {S : Nat → Prop} (hs : S spline) :
    Within S (closure c h h' spline derivs) := by
  cases c <;> simp [Within, closure, Cmd.changes, hs]

theorem Builder.call_ok (B : Builder) {spline vals dmin dmax tr : Nat} {L : Nat → Prop} (hs : L spline) (hv : L vals)
    (h1 : B.lower = .hermite → L dmin) (h2 : B.upper = .hermite → L dmax) (hm : ∀ b ∈ B.solver.mats, L b)
    (ht : ¬L tr) (htt : ∀ b ∈ B.solver.temps, ¬L b ∧ b ≠ tr) (hd : B.solver.Distinct) :
    good L (B.call spline vals dmin dmax tr) ∧ after L (B.call spline vals dmin dmax tr) = L := by
  obtain ⟨g1, a1⟩ := closure_ok (c := B.lower) (h := 957) (h' := 977) hs h1
  obtain ⟨g2, a2⟩ := closure_ok (c := B.upper) (h := 1011) (h' := 1032) hs h2
  obtain ⟨g3, a3⟩ := B.solver.solve_ok false tr (L := ins tr L) (.inl rfl) (fun c hc => .inr (hm c hc))
    (fun c hc hl => hl.elim (htt c hc).2 (htt c hc).1) hd
  have hs' : ins tr L spline := .inr hs
  have ht' : ins tr L tr := .inl rfl
  have gp : good (ins tr L) (if B.periodic then [.launch 0 ⟨1075, [], [spline], 0⟩] else []) ∧
      after (ins tr L) (if B.periodic then [.launch 0 ⟨1075, [], [spline], 0⟩] else []) = ins tr L := by
    split <;> simp [good, after, Kernel.touches, hs']
  have gb : good L [.launch 0 ⟨981, [], [spline], 0⟩, .launch 0 ⟨989, [vals], [spline], 0⟩] := by
    simp [good, Kernel.touches, hs, hv]
  have ab : after L [.launch 0 ⟨981, [], [spline], 0⟩, .launch 0 ⟨989, [vals], [spline], 0⟩] = L := rfl
  have gt : good L [.alloc tr, .launch 0 ⟨1042, [spline], [tr], 0⟩] := by
    simp [good, Kernel.touches, ht, hs', ht']
  have at' : after L [.alloc tr, .launch 0 ⟨1042, [spline], [tr], 0⟩] = ins tr L := rfl
  have gk : good (ins tr L) [.launch 0 ⟨1061, [tr], [spline], 0⟩] := by simp [good, Kernel.touches, hs', ht']
  have gf : good (ins tr L) [.free tr] := ⟨ht', trivial⟩
  have af : after (ins tr L) [.free tr] = L := del_ins ht
  simp only [Builder.call, good_append, after_append, a1, a2, a3, ab, at', g1, g2, g3, gb, gt, gk, gf, af, gp.1, gp.2,
    after_launch, and_self]

theorem Builder.call_on (B : Builder) (spline vals dmin dmax tr : Nat) :
    ∀ c ∈ B.call spline vals dmin dmax tr, c.On 0 := by
  simp only [Builder.call, on_append]
  refine ⟨⟨⟨⟨⟨⟨⟨closure_on, by simp [Cmd.On]⟩, closure_on⟩, by simp [Cmd.On]⟩, Solver.solve_on _ _ _⟩, by simp [Cmd.On]⟩,
    ?_⟩, by simp [Cmd.On]⟩
  split <;> simp [Cmd.On]

theorem Builder.call_within (B : Builder) (spline vals dmin dmax tr : Nat) :
    Within (fun x => x = spline ∨ x = tr ∨ x ∈ B.solver.temps) (B.call spline vals dmin dmax tr) := by
  simp only [Builder.call, within_append]
  refine ⟨⟨⟨⟨⟨⟨⟨closure_within (.inl rfl), by simp [Within, Cmd.changes]⟩, closure_within (.inl rfl)⟩,
    by simp [Within, Cmd.changes]⟩, (Solver.solve_within _ _ _).mono fun x h => .inr h⟩, by simp [Within, Cmd.changes]⟩,
    ?_⟩, by simp [Within, Cmd.changes]⟩
  split <;> simp [Within, Cmd.changes]

theorem rest_free {cfg : Config} (hw : cfg.freeWaits = true) (P : List (Nat × Kernel)) (p : List Cmd) (b : Nat) :
    rest cfg P (p ++ [.free b]) = [] := by
  rw [rest_append]
  simp [rest, hw]

theorem Needs2.mono {B₁ B₂ : Builder} {L M : Nat → Prop} {vals dmin1 dmax1 dmin2 dmax2 mm xm mx xx : Nat}
    (h : Needs2 B₁ B₂ L vals dmin1 dmax1 dmin2 dmax2 mm xm mx xx) (hLM : ∀ b, L b → M b) :
    Needs2 B₁ B₂ M vals dmin1 dmax1 dmin2 dmax2 mm xm mx xx :=
  ⟨hLM _ h.vals, fun a => hLM _ (h.dmin1 a), fun a => hLM _ (h.dmax1 a), fun a => hLM _ (h.dmin2 a),
    fun a => hLM _ (h.dmax2 a), fun a b => hLM _ (h.mm a b), fun a b => hLM _ (h.xm a b), fun a b => hLM _ (h.mx a b),
    fun a b => hLM _ (h.xx a b)⟩

theorem Builder.call2_ok (B₁ B₂ : Builder) {spline vals dmin1 dmax1 dmin2 dmax2 mm xm mx xx t1 t2 t3 tr : Nat}
    {L : Nat → Prop} (hs : L spline) (hn : Needs2 B₁ B₂ L vals dmin1 dmax1 dmin2 dmax2 mm xm mx xx)
    (ht : ∀ b ∈ [t1, t2, t3, tr], ¬L b) (hd : [t1, t2, t3, tr].Nodup)
    (h1 : Temps B₁ L [t1, t2, t3, tr]) (h2 : Temps B₂ L [t1, t2, t3, tr]) :
    good L (B₁.call2 B₂ spline vals dmin1 dmax1 dmin2 dmax2 mm xm mx xx t1 t2 t3 tr) ∧
      after L (B₁.call2 B₂ spline vals dmin1 dmax1 dmin2 dmax2 mm xm mx xx t1 t2 t3 tr) = L := by
  simp only [List.nodup_cons, List.mem_cons, List.not_mem_nil, or_false, not_or, not_false_eq_true, List.nodup_nil,
    and_true] at hd
  obtain ⟨⟨n12, n13, n1r⟩, ⟨n23, n2r⟩, n3r⟩ := hd
  have k1 : ¬L t1 := ht t1 (by simp)
  have k2 : ¬L t2 := ht t2 (by simp)
  have k3 : ¬L t3 := ht t3 (by simp)
  have kr : ¬L tr := ht tr (by simp)
  have key : ∀ (B : Builder) (M : Nat → Prop) (o v a b : Nat), Temps B L [t1, t2, t3, tr] → M o → M v →
      (B.lower = .hermite → M a) → (B.upper = .hermite → M b) → ¬M tr → (∀ c, L c → M c) →
      (∀ c, M c → L c ∨ c ∈ [t1, t2, t3, tr]) →
      good M (B.call o v a b tr) ∧ after M (B.call o v a b tr) = M := by
    intro B M o v a b hB ho hv ha hb hr hLM hML
    refine B.call_ok ho hv ha hb (fun c hc => hLM c (hB.mats c hc)) hr (fun c hc => ⟨fun h => ?_, fun h => ?_⟩)
      hB.distinct
    · exact (hML c h).elim (hB.dead c hc) (hB.ne c hc)
    · exact hB.ne c hc (by simp [h])
  have hi1 : ∀ c, ins t1 L c → L c ∨ c ∈ [t1, t2, t3, tr] := by rintro c (h | h) <;> simp [h]
  have hi2 : ∀ c, ins t2 (ins t1 L) c → L c ∨ c ∈ [t1, t2, t3, tr] := by rintro c (h | h | h) <;> simp [h]
  have hi3 : ∀ c, ins t3 (ins t2 (ins t1 L)) c → L c ∨ c ∈ [t1, t2, t3, tr] := by
    rintro c (h | h | h | h) <;> simp [h]
  have c1 := key B₁ (ins t1 L) t1 dmin2 mm xm h1 (.inl rfl)
  have g1 : good (ins t1 L) (if B₂.lower = .hermite then B₁.call t1 dmin2 mm xm tr else []) ∧
      after (ins t1 L) (if B₂.lower = .hermite then B₁.call t1 dmin2 mm xm tr else []) = ins t1 L := by
    split
    · next h =>
      exact c1 (.inr (hn.dmin2 h)) (fun a => .inr (hn.mm h a)) (fun a => .inr (hn.xm h a))
        (fun a => a.elim (fun e => n1r e.symm) kr) (fun c hc => .inr hc) hi1
    · exact ⟨trivial, rfl⟩
  have g2 := key B₁ (ins t2 (ins t1 L)) t2 vals dmin1 dmax1 h1 (.inl rfl) (.inr (.inr hn.vals))
    (fun a => .inr (.inr (hn.dmin1 a))) (fun a => .inr (.inr (hn.dmax1 a)))
    (fun a => a.elim (fun e => n2r e.symm) fun a => a.elim (fun e => n1r e.symm) kr) (fun c hc => .inr (.inr hc)) hi2
  have nr3 : ¬ins t3 (ins t2 (ins t1 L)) tr := fun a => a.elim (fun e => n3r e.symm) fun a =>
    a.elim (fun e => n2r e.symm) fun a => a.elim (fun e => n1r e.symm) kr
  have g3 : good (ins t3 (ins t2 (ins t1 L))) (if B₂.upper = .hermite then B₁.call t3 dmax2 mx xx tr else []) ∧
      after (ins t3 (ins t2 (ins t1 L))) (if B₂.upper = .hermite then B₁.call t3 dmax2 mx xx tr else []) =
        ins t3 (ins t2 (ins t1 L)) := by
    split
    · next h =>
      exact key B₁ (ins t3 (ins t2 (ins t1 L))) t3 dmax2 mx xx h1 (.inl rfl) (.inr (.inr (.inr (hn.dmax2 h))))
        (fun a => .inr (.inr (.inr (hn.mx h a)))) (fun a => .inr (.inr (.inr (hn.xx h a)))) nr3
        (fun c hc => .inr (.inr (.inr hc))) hi3
    · exact ⟨trivial, rfl⟩
  have g4 := key B₂ (ins t3 (ins t2 (ins t1 L))) spline t2 t1 t3 h2 (.inr (.inr (.inr hs))) (.inr (.inl rfl))
    (fun _ => .inr (.inr (.inl rfl))) (fun _ => .inl rfl) nr3 (fun c hc => .inr (.inr (.inr hc))) hi3
  have m2 : ¬ins t1 L t2 := fun a => a.elim (fun e => n12 e.symm) k2
  have m3 : ¬ins t2 (ins t1 L) t3 := fun a => a.elim (fun e => n23 e.symm) fun a => a.elim (fun e => n13 e.symm) k3
  have ga : ∀ {M : Nat → Prop} {b : Nat}, ¬M b → good M [.alloc b] := fun h => ⟨h, trivial⟩
  have aa : ∀ {M : Nat → Prop} {b : Nat}, after M [.alloc b] = ins b M := rfl
  have gf : good (ins t3 (ins t2 (ins t1 L))) [.free t3, .free t2, .free t1] := by
    refine ⟨.inl rfl, ?_⟩
    rw [del_ins m3]
    refine ⟨.inl rfl, ?_⟩
    rw [del_ins m2]
    exact ⟨.inl rfl, trivial⟩
  have af : after (ins t3 (ins t2 (ins t1 L))) [.free t3, .free t2, .free t1] = L := by
    show del t1 (del t2 (del t3 _)) = L
    rw [del_ins m3, del_ins m2, del_ins k1]
  simp only [Builder.call2, good_append, after_append, ga k1, ga m2, ga m3, aa, g1.1, g1.2, g2.1, g2.2, g3.1, g3.2,
    g4.1, g4.2, gf, af, and_self]

theorem Builder.call2_on (B₁ B₂ : Builder) (spline vals dmin1 dmax1 dmin2 dmax2 mm xm mx xx t1 t2 t3 tr : Nat) :
    ∀ c ∈ B₁.call2 B₂ spline vals dmin1 dmax1 dmin2 dmax2 mm xm mx xx t1 t2 t3 tr, c.On 0 := by
  have ha : ∀ b, ∀ c ∈ [Cmd.alloc b], c.On 0 := by simp [Cmd.On]
  simp only [Builder.call2, on_append]
  refine ⟨⟨⟨⟨⟨⟨⟨ha _, ?_⟩, ha _⟩, call_on _ _ _ _ _ _⟩, ha _⟩, ?_⟩, call_on _ _ _ _ _ _⟩, by simp [Cmd.On]⟩
  · split
    · exact call_on _ _ _ _ _ _
    · simp
  · split
    · exact call_on _ _ _ _ _ _
    · simp

theorem Builder.call2_within (B₁ B₂ : Builder) (spline vals dmin1 dmax1 dmin2 dmax2 mm xm mx xx t1 t2 t3 tr : Nat) :
    Within (fun x => x = spline ∨ x ∈ [t1, t2, t3, tr] ∨ x ∈ B₁.solver.temps ∨ x ∈ B₂.solver.temps)
      (B₁.call2 B₂ spline vals dmin1 dmax1 dmin2 dmax2 mm xm mx xx t1 t2 t3 tr) := by
  have h1 : ∀ {o v a b}, o ∈ [t1, t2, t3] →
      Within (fun x => x = spline ∨ x ∈ [t1, t2, t3, tr] ∨ x ∈ B₁.solver.temps ∨ x ∈ B₂.solver.temps)
      (B₁.call o v a b tr) := by
    intro o v a b ho
    refine (call_within _ _ _ _ _ _).mono fun x hx => ?_
    rcases hx with rfl | rfl | hx
    · right; left; simp only [List.mem_cons, List.not_mem_nil, or_false] at ho ⊢; tauto
    · simp
    · simp [hx]
  have h2 : Within (fun x => x = spline ∨ x ∈ [t1, t2, t3, tr] ∨ x ∈ B₁.solver.temps ∨ x ∈ B₂.solver.temps)
      (B₂.call spline t2 t1 t3 tr) := by
    refine (call_within _ _ _ _ _ _).mono fun x hx => ?_
    rcases hx with rfl | rfl | hx
    · simp
    · simp
    · simp [hx]
  simp only [Builder.call2, within_append]
  refine ⟨⟨⟨⟨⟨⟨⟨by simp [Within, Cmd.changes], ?_⟩, by simp [Within, Cmd.changes]⟩, h1 (by simp)⟩,
    by simp [Within, Cmd.changes]⟩, ?_⟩, h2⟩, by simp [Within, Cmd.changes]⟩
  · split
    · exact h1 (by simp)
    · simp [Within]
  · split
    · exact h1 (by simp)
    · simp [Within]

theorem scopes_ok {L : Nat → Prop} {T : List Nat} {body : List Cmd} (r : List (Nat × List Cmd)) :
    ∀ {M : Nat → Prop}, (∀ c, L c → M c) → (∀ c, M c → L c ∨ c ∈ T) → (∀ t ∈ r, t.1 ∈ T ∧ ¬M t.1) →
    (r.map Prod.fst).Nodup →
    (∀ t ∈ r, ∀ M', (∀ c, L c → M' c) → (∀ c, M' c → L c ∨ c ∈ T) → M' t.1 → good M' t.2 ∧ after M' t.2 = M') →
    (∀ M', (∀ c, M c → M' c) → (∀ c, M' c → L c ∨ c ∈ T) → (∀ t ∈ r, M' t.1) → good M' body ∧ after M' body = M') →
    good M (scopes body r) ∧ after M (scopes body r) = M := by
  induction r with
  | nil =>
    intro M h1 h2 _ _ _ hb
    exact hb M (fun _ h => h) h2 (by simp)
  | cons t r ih =>
    intro M h1 h2 ht hn hi hb
    obtain ⟨hT, hM⟩ := ht t (by simp)
    have h1' : ∀ c, L c → ins t.1 M c := fun c hc => .inr (h1 c hc)
    have h2' : ∀ c, ins t.1 M c → L c ∨ c ∈ T := by
      rintro c (rfl | hc)
      · exact .inr hT
      · exact h2 c hc
    rw [List.map_cons, List.nodup_cons] at hn
    obtain ⟨g1, a1⟩ := hi t (by simp) (ins t.1 M) h1' h2' (.inl rfl)
    obtain ⟨g2, a2⟩ := ih (M := ins t.1 M) h1' h2'
      (fun u hu => ⟨(ht u (List.mem_cons_of_mem _ hu)).1, fun h => h.elim
        (fun e => hn.1 (e ▸ List.mem_map_of_mem hu)) (ht u (List.mem_cons_of_mem _ hu)).2⟩) hn.2
      (fun u hu => hi u (List.mem_cons_of_mem _ hu))
      (fun M' hM' hT' hr => hb M' (fun c hc => hM' c (.inr hc)) hT' (fun u hu => by
        rcases List.mem_cons.1 hu with rfl | hu
        · exact hM' _ (.inl rfl)
        · exact hr u hu))
    have gf : good (ins t.1 M) [.free t.1] := ⟨.inl rfl, trivial⟩
    have af : after (ins t.1 M) [.free t.1] = M := del_ins hM
    have ga : good M [.alloc t.1] := ⟨hM, trivial⟩
    have aa : after M [.alloc t.1] = ins t.1 M := rfl
    simp only [scopes, good_append, after_append, ga, aa, g1, a1, g2, a2, gf, af, and_self]

theorem scopes_on {i : Nat} {body : List Cmd} {r : List (Nat × List Cmd)} (hb : ∀ c ∈ body, c.On i)
    (hr : ∀ t ∈ r, ∀ c ∈ t.2, c.On i) : ∀ c ∈ scopes body r, c.On i := by
  induction r with
  | nil => exact hb
  | cons t r ih =>
    simp only [scopes, on_append]
    exact ⟨⟨⟨by simp [Cmd.On], hr t (by simp)⟩, ih fun u hu => hr u (List.mem_cons_of_mem _ hu)⟩, by simp [Cmd.On]⟩

theorem scopes_within {S : Nat → Prop} {body : List Cmd} {r : List (Nat × List Cmd)} (hb : Within S body)
    (hr : ∀ t ∈ r, S t.1 ∧ Within S t.2) : Within S (scopes body r) := by
  induction r with
  | nil => exact hb
  | cons t r ih =>
    obtain ⟨h1, h2⟩ := hr t (by simp)
    simp only [scopes, within_append]
    exact ⟨⟨⟨by simp [Within, Cmd.changes, h1], h2⟩, ih fun u hu => hr u (List.mem_cons_of_mem _ hu)⟩,
      by simp [Within, Cmd.changes, h1]⟩

theorem hermite_lower {B : Builder} (h : B.lower = .hermite) : B.hermite false = true := by simp [Builder.hermite, h]

theorem hermite_upper {B : Builder} (h : B.upper = .hermite) : B.hermite true = true := by simp [Builder.hermite, h]

theorem Builder.inits3_fst (B₁ B₂ B₃ : Builder) (vals : Nat) (D : Derivs3) (T : Temps3) :
    (B₁.inits3 B₂ B₃ vals D T).map Prod.fst = T.own := rfl

theorem Builder.call3_ok (B₁ B₂ B₃ : Builder) {spline vals : Nat} {D : Derivs3} {T : Temps3} {L : Nat → Prop}
    (hs : L spline) (hn : Needs3 B₁ B₂ B₃ L vals D) (ht : ∀ b ∈ T.all, ¬L b) (hd : T.all.Nodup)
    (h1 : Temps B₁ L T.all) (h2 : Temps B₂ L T.all) (h3 : Temps B₃ L T.all) :
    good L (B₁.call3 B₂ B₃ spline vals D T) ∧ after L (B₁.call3 B₂ B₃ spline vals D T) = L := by
  obtain ⟨hd1, hd2, hd3⟩ := List.nodup_append.1 hd
  have out : ∀ {M : Nat → Prop}, (∀ c, M c → L c ∨ c ∈ T.own) → ∀ b ∈ [T.u1, T.u2, T.u3, T.tr], ¬M b :=
    fun hM b hb h => (hM b h).elim (ht b (List.mem_append.2 (.inr hb))) fun ho => hd3 b ho b hb rfl
  have temps : ∀ {B : Builder} {M : Nat → Prop}, Temps B L T.all → (∀ c, L c → M c) → (∀ c, M c → L c ∨ c ∈ T.own) →
      Temps B M [T.u1, T.u2, T.u3, T.tr] := fun hB hLM hMT =>
    ⟨fun b hb h => (hMT b h).elim (hB.dead b hb) fun ho => hB.ne b hb (List.mem_append.2 (.inl ho)),
      fun b hb h => hB.ne b hb (List.mem_append.2 (.inr h)), fun b hb => hLM b (hB.mats b hb), hB.distinct⟩
  have call : ∀ {M : Nat → Prop} {c : Bool} {o v a b : Nat}, (∀ c, L c → M c) → (∀ c, M c → L c ∨ c ∈ T.own) → M o →
      (c = true → L v ∧ (B₁.hermite false → L a) ∧ (B₁.hermite true → L b)) →
      good M (if c then B₁.call o v a b T.tr else []) ∧ after M (if c then B₁.call o v a b T.tr else []) = M := by
    intro M c o v a b hLM hMT ho hc
    split
    · next h =>
      obtain ⟨q1, q2, q3⟩ := hc h
      have t1 := temps h1 hLM hMT
      exact B₁.call_ok ho (hLM _ q1) (fun e => hLM _ (q2 (hermite_lower e))) (fun e => hLM _ (q3 (hermite_upper e)))
        t1.mats (out hMT T.tr (by simp)) (fun b hb => ⟨t1.dead b hb, fun e => t1.ne b hb (by simp [e])⟩) t1.distinct
    · exact ⟨trivial, rfl⟩
  refine scopes_ok (L := L) (T := T.own) (B₁.inits3 B₂ B₃ vals D T) (fun _ h => h) (fun _ h => .inl h)
    (fun t hr => ?_) (by rw [Builder.inits3_fst]; exact hd1) (fun t hr M' hLM hMT hM => ?_) (fun M' hMM hMT hr => ?_)
  · have : t.1 ∈ T.own := by rw [← Builder.inits3_fst B₁ B₂ B₃ vals D T]; exact List.mem_map_of_mem hr
    exact ⟨this, ht t.1 (List.mem_append.2 (.inl this))⟩
  · simp only [Builder.inits3, List.mem_cons, List.not_mem_nil, or_false] at hr
    rcases hr with rfl | rfl | rfl | rfl | rfl | rfl | rfl | rfl | rfl
    · exact call hLM hMT hM fun h => ⟨(hn.d2 _ h).1, (hn.d2 _ h).2 _, (hn.d2 _ h).2 _⟩
    · exact call hLM hMT hM fun h => ⟨(hn.d2 _ h).1, (hn.d2 _ h).2 _, (hn.d2 _ h).2 _⟩
    · exact call hLM hMT hM fun h => ⟨(hn.d3 _ h).1, (hn.d3 _ h).2 _, (hn.d3 _ h).2 _⟩
    · exact call hLM hMT hM fun h => ⟨(hn.d3 _ h).1, (hn.d3 _ h).2 _, (hn.d3 _ h).2 _⟩
    · exact call hLM hMT hM fun h => ⟨(hn.d23 _ _ (by simpa using h)).1, (hn.d23 _ _ (by simpa using h)).2 _,
        (hn.d23 _ _ (by simpa using h)).2 _⟩
    · exact call hLM hMT hM fun h => ⟨(hn.d23 _ _ (by simpa using h)).1, (hn.d23 _ _ (by simpa using h)).2 _,
        (hn.d23 _ _ (by simpa using h)).2 _⟩
    · exact call hLM hMT hM fun h => ⟨(hn.d23 _ _ (by simpa using h)).1, (hn.d23 _ _ (by simpa using h)).2 _,
        (hn.d23 _ _ (by simpa using h)).2 _⟩
    · exact call hLM hMT hM fun h => ⟨(hn.d23 _ _ (by simpa using h)).1, (hn.d23 _ _ (by simpa using h)).2 _,
        (hn.d23 _ _ (by simpa using h)).2 _⟩
    · exact call (c := true) hLM hMT hM fun _ => ⟨hn.vals, hn.d1 _, hn.d1 _⟩
  · have hown : ∀ b ∈ T.own, M' b := by
      intro b hb
      rw [← Builder.inits3_fst B₁ B₂ B₃ vals D T] at hb
      obtain ⟨t, ht', rfl⟩ := List.mem_map.1 hb
      exact hr t ht'
    refine Builder.call2_ok B₂ B₃ (hMM _ hs) ⟨hown _ (by simp [Temps3.own]), fun _ => hown _ (by simp [Temps3.own]),
      fun _ => hown _ (by simp [Temps3.own]), fun _ => hown _ (by simp [Temps3.own]), fun _ => hown _ (by simp [Temps3.own]),
      fun _ _ => hown _ (by simp [Temps3.own]), fun _ _ => hown _ (by simp [Temps3.own]),
      fun _ _ => hown _ (by simp [Temps3.own]), fun _ _ => hown _ (by simp [Temps3.own])⟩ (out hMT) hd2
      (temps h2 hMM hMT) (temps h3 hMM hMT)

theorem Builder.call3_on (B₁ B₂ B₃ : Builder) (spline vals : Nat) (D : Derivs3) (T : Temps3) :
    ∀ c ∈ B₁.call3 B₂ B₃ spline vals D T, c.On 0 := by
  refine scopes_on (call2_on _ _ _ _ _ _ _ _ _ _ _ _ _ _ _ _) fun t ht => ?_
  simp only [Builder.inits3, List.mem_cons, List.not_mem_nil, or_false] at ht
  have h : ∀ (c : Bool) (o v a b : Nat), ∀ x ∈ (if c then B₁.call o v a b T.tr else []), x.On 0 := by
    intro c o v a b
    split
    · exact call_on _ _ _ _ _ _
    · simp
  rcases ht with rfl | rfl | rfl | rfl | rfl | rfl | rfl | rfl | rfl
  all_goals first | exact h _ _ _ _ _ | exact h true _ _ _ _

theorem Builder.call3_within (B₁ B₂ B₃ : Builder) (spline vals : Nat) (D : Derivs3) (T : Temps3) :
    Within (fun x => x = spline ∨ x ∈ T.all ∨ x ∈ B₁.solver.temps ∨ x ∈ B₂.solver.temps ∨ x ∈ B₃.solver.temps)
      (B₁.call3 B₂ B₃ spline vals D T) := by
  have h : ∀ (c : Bool) (o v a b : Nat), o ∈ T.own →
      Within (fun x => x = spline ∨ x ∈ T.all ∨ x ∈ B₁.solver.temps ∨ x ∈ B₂.solver.temps ∨ x ∈ B₃.solver.temps)
        (if c then B₁.call o v a b T.tr else []) := by
    intro c o v a b ho
    split
    · refine (call_within _ _ _ _ _ _).mono fun x hx => ?_
      rcases hx with rfl | rfl | hx
      · simp [Temps3.all, ho]
      · simp [Temps3.all]
      · simp [hx]
    · simp [Within]
  refine scopes_within ?_ fun t ht => ?_
  · refine (call2_within _ _ _ _ _ _ _ _ _ _ _ _ _ _ _ _).mono fun x hx => ?_
    rcases hx with rfl | hx | hx | hx
    · simp
    · right; left; exact List.mem_append.2 (.inr hx)
    · simp [hx]
    · simp [hx]
  · have hf : t.1 ∈ T.own := by rw [← Builder.inits3_fst B₁ B₂ B₃ vals D T]; exact List.mem_map_of_mem ht
    refine ⟨.inr (.inl (List.mem_append.2 (.inl hf))), ?_⟩
    simp only [Builder.inits3, List.mem_cons, List.not_mem_nil, or_false] at ht
    rcases ht with rfl | rfl | rfl | rfl | rfl | rfl | rfl | rfl | rfl
    all_goals first | exact h _ _ _ _ _ hf | exact h true _ _ _ _ hf

end DDC.Async
