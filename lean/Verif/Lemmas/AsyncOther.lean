import Verif.Lemmas.AsyncBuilder

/-! # The other functions that launch kernels -/

namespace DDC.Async

open Spec

variable {V : Type} {W : World V}

theorem del_same {b : Nat} {L : Nat → Prop} : del b (ins b L) = del b L := by
  funext c
  refine propext ⟨fun h => ⟨h.1, h.2.resolve_left h.1⟩, fun h => ⟨h.1, .inr h.2⟩⟩

theorem del_other {b c : Nat} {L : Nat → Prop} (h : c ≠ b) : del b (ins c L) = ins c (del b L) := by
  funext d
  refine propext ⟨fun hd => hd.2.imp_right fun h' => ⟨hd.1, h'⟩, fun hd => ?_⟩
  rcases hd with rfl | hd
  · exact ⟨h, .inl rfl⟩
  · exact ⟨hd.1, .inr hd.2⟩

theorem del_dead {b : Nat} {L : Nat → Prop} (h : ¬L b) : del b L = L := by
  funext c
  exact propext ⟨fun hc => hc.2, fun hc => ⟨fun e => h (e ▸ hc), hc⟩⟩

theorem ins_iff {b c : Nat} {L : Nat → Prop} : ins b L c ↔ c = b ∨ L c := Iff.rfl

theorem live_of_none {m : Mem V} {b : Nat} (h : m b = none) : ¬live m b := by simp [live, h]

/-- The value of a program on one instance. -/
theorem onInstance {i : Nat} {s : State V} {m : Mem V} (hs : Called i W s m) (ho : ∀ c ∈ s.prog, c.On i)
    (hg : good (live m) s.prog) : ∃ final, sync W s.prog m = .ok final ∧
      (∀ b, (final b).isSome ↔ after (live m) s.prog b) ∧ Inv ⟨true⟩ W s s.pending final := by
  obtain ⟨final, h1, h2⟩ := sync_good (W := W) (fun b => Iff.rfl) hg
  exact ⟨final, h1, h2, Inv.called hs (disc_on rfl ho hs.quiet) h1⟩

theorem Inv.waiting {cfg : Config} {s s' : State V} {P : List (Nat × Kernel)} {final : Mem V} (h : Inv cfg W s P final)
    {ws : List Who} (e : s.exec cfg W ws = .ok s') (hp : s'.prog = []) : ∀ x ∈ s'.pending, x ∈ rest cfg P s.prog := by
  obtain ⟨s'', P', e', h', r⟩ := h.exec ws
  rw [e] at e'
  cases e'
  intro x hx
  have := h'.sub x hx
  rw [← r, hp]
  exact this

theorem frame_of {p : List Cmd} {S : Nat → Prop} {m final : Mem V} (hf : sync W p m = .ok final) (hw : Within S p)
    {b : Nat} (hb : ¬S b) : final b = m b :=
  sync_frame hf fun c hc hx => hb (hw c hc b hx)

/-! ## Integrals -/

theorem integrals_ok {i : Nat} {u p r : Bool} {v : Nat} {L : Nat → Prop} (h : L v) :
    good L (integrals i u p r v) ∧ after L (integrals i u p r v) = L := by
  cases u <;> cases p <;> cases r <;> simp [integrals, good, after, Kernel.touches, h]

theorem integrals_on {i : Nat} {u p r : Bool} {v : Nat} : ∀ c ∈ integrals i u p r v, c.On i := by
  cases u <;> cases p <;> cases r <;> simp [integrals, Cmd.On]

theorem integrals_within {S : Nat → Prop} {i : Nat} {u p r : Bool} {v : Nat} (h : S v) :
    Within S (integrals i u p r v) := by
  cases u <;> cases p <;> cases r <;> simp [Within, integrals, Cmd.changes, h]

/-! ## Quadrature coefficients -/

theorem Builder.quadrature_ok (B : Builder) {u : Bool} {ib mirror o1 o2 o3 : Nat} {L : Nat → Prop}
    (hd : [ib, mirror, o1, o2, o3].Nodup) (hn : ∀ b ∈ [ib, mirror, o1, o2, o3], ¬L b)
    (ht : Temps B L [ib, mirror]) :
    good L (B.quadrature u ib mirror o1 o2 o3) ∧
      after L (B.quadrature u ib mirror o1 o2 o3) = ins o3 (ins o2 (ins o1 L)) := by
  simp only [List.nodup_cons, List.mem_cons, List.not_mem_nil, or_false, not_or, not_false_eq_true, List.nodup_nil,
    and_true] at hd
  obtain ⟨⟨n1, n2, n3, n4⟩, ⟨n5, n6, n7⟩, ⟨n8, n9⟩, n10⟩ := hd
  have d1 := hn ib (by simp)
  have d2 := hn mirror (by simp)
  have d3 := hn o1 (by simp)
  have d4 := hn o2 (by simp)
  have d5 := hn o3 (by simp)
  obtain ⟨g1, a1⟩ := integrals_ok (i := 0) (u := u) (p := B.periodic) (r := true) (v := ib) (L := ins ib L) (.inl rfl)
  obtain ⟨g2, a2⟩ := B.solver.solve_ok true mirror (L := ins mirror (ins ib L)) (.inl rfl)
    (fun c hc => .inr (.inr (ht.mats c hc)))
    (fun c hc hl => by
      have := ht.ne c hc
      rcases hl with rfl | rfl | hl
      · simp at this
      · simp at this
      · exact ht.dead c hc hl) ht.distinct
  have ga : good L [.alloc ib] := ⟨d1, trivial⟩
  have aa : after L [.alloc ib] = ins ib L := rfl
  have hm : ins mirror (ins ib L) mirror := .inl rfl
  have hi : ins mirror (ins ib L) ib := .inr (.inl rfl)
  have nm : ¬ins ib L mirror := fun h => h.elim (fun e => n1 e.symm) d2
  have gk : good (ins mirror (ins ib L)) [.launch 0 ⟨1187, [], [ib], 0⟩, .launch 0 ⟨1196, [], [ib], 0⟩] := by
    simp [good, Kernel.touches, hi]
  have ak : after (ins mirror (ins ib L)) [.launch 0 ⟨1187, [], [ib], 0⟩, .launch 0 ⟨1196, [], [ib], 0⟩] =
    ins mirror (ins ib L) := rfl
  have gA : good (ins mirror (ins ib L)) [.alloc o1, .alloc o2, .alloc o3] := by
    simp [good, ins_iff, Ne.symm n2, Ne.symm n3, Ne.symm n4, Ne.symm n5, Ne.symm n6, Ne.symm n7, Ne.symm n8, Ne.symm n9,
      Ne.symm n10, d3, d4, d5]
  have aA : after (ins mirror (ins ib L)) [.alloc o1, .alloc o2, .alloc o3] =
    ins o3 (ins o2 (ins o1 (ins mirror (ins ib L)))) := rfl
  have hi' : ins o3 (ins o2 (ins o1 (ins mirror (ins ib L)))) ib := .inr (.inr (.inr hi))
  have h1 : ins o3 (ins o2 (ins o1 (ins mirror (ins ib L)))) o1 := .inr (.inr (.inl rfl))
  have h2 : ins o3 (ins o2 (ins o1 (ins mirror (ins ib L)))) o2 := .inr (.inl rfl)
  have h3 : ins o3 (ins o2 (ins o1 (ins mirror (ins ib L)))) o3 := .inl rfl
  have dm : del mirror (ins o3 (ins o2 (ins o1 (ins mirror (ins ib L))))) = ins o3 (ins o2 (ins o1 (ins ib L))) := by
    rw [del_other (Ne.symm n7), del_other (Ne.symm n6), del_other (Ne.symm n5), del_ins nm]
  have di : del ib (ins o3 (ins o2 (ins o1 (ins ib L)))) = ins o3 (ins o2 (ins o1 L)) := by
    rw [del_other (Ne.symm n4), del_other (Ne.symm n3), del_other (Ne.symm n2), del_ins d1]
  have gf : good (ins o3 (ins o2 (ins o1 (ins mirror (ins ib L))))) [.free mirror, .free ib] := by
    refine ⟨.inr (.inr (.inr hm)), ?_, trivial⟩
    rw [dm]
    exact .inr (.inr (.inr (.inl rfl)))
  have af : after (ins o3 (ins o2 (ins o1 (ins mirror (ins ib L))))) [.free mirror, .free ib] = ins o3 (ins o2 (ins o1 L)) := by
    show del ib (del mirror _) = _
    rw [dm, di]
  simp only [Builder.quadrature, good_append, after_append, ga, aa, g1, a1, good_newView nm, after_newView,
    good_deepCopy hm hi, good_deepCopy hi hm, after_deepCopy, g2, a2, gk, ak, gA, aA, good_deepCopy h1 hi',
    good_deepCopy h2 hi', good_deepCopy h3 hi', gf, af, and_self]

theorem Builder.quadrature_on (B : Builder) (u : Bool) (ib mirror o1 o2 o3 : Nat) :
    ∀ c ∈ B.quadrature u ib mirror o1 o2 o3, c.On 0 := by
  simp only [Builder.quadrature, on_append]
  refine ⟨⟨⟨⟨⟨⟨⟨⟨⟨⟨⟨by simp [Cmd.On], integrals_on⟩, newView_on⟩, deepCopy_on⟩, Solver.solve_on _ _ _⟩, deepCopy_on⟩,
    by simp [Cmd.On]⟩, by simp [Cmd.On]⟩, deepCopy_on⟩, deepCopy_on⟩, deepCopy_on⟩, by simp [Cmd.On]⟩

theorem Builder.quadrature_within (B : Builder) (u : Bool) (ib mirror o1 o2 o3 : Nat) :
    Within (fun x => x ∈ [ib, mirror, o1, o2, o3] ∨ x ∈ B.solver.temps) (B.quadrature u ib mirror o1 o2 o3) := by
  simp only [Builder.quadrature, within_append]
  refine ⟨⟨⟨⟨⟨⟨⟨⟨⟨⟨⟨by simp [Within, Cmd.changes], integrals_within (by simp)⟩, within_newView (by simp)⟩,
    within_deepCopy (by simp)⟩, (Solver.solve_within _ _ _).mono fun x h => ?_⟩, within_deepCopy (by simp)⟩,
    by simp [Within, Cmd.changes]⟩, by simp [Within, Cmd.changes]⟩, within_deepCopy (by simp)⟩,
    within_deepCopy (by simp)⟩, within_deepCopy (by simp)⟩, by simp [Within, Cmd.changes]⟩
  rcases h with rfl | h
  · simp
  · exact .inr h

theorem Builder.quadrature_rest (B : Builder) (u : Bool) (ib mirror o1 o2 o3 : Nat) (P : List (Nat × Kernel)) :
    rest ⟨true⟩ P (B.quadrature u ib mirror o1 o2 o3) = [] := by
  unfold Builder.quadrature
  rw [rest_append]
  simp [rest]

/-! ## `integrate` -/

theorem integrate_ok {u p : Bool} {out coef : Nat} {values : List Nat} {L : Nat → Prop} (ho : L out) (hc : L coef)
    (hn : ∀ v ∈ values, ¬L v) (hd : values.Nodup) :
    good L (integrate u p out coef values) ∧ after L (integrate u p out coef values) = L := by
  refine scopes_ok (L := L) (T := values) _ (fun _ h => h) (fun _ h => .inl h) (fun t ht => ?_) ?_
    (fun t ht M' _ _ hM => ?_) (fun M' hM _ hr => ⟨⟨fun b hb => ?_, trivial⟩, rfl⟩)
  · obtain ⟨v, hv, rfl⟩ := List.mem_map.1 ht
    exact ⟨hv, hn v hv⟩
  · rw [List.map_map]
    exact (List.map_id values).symm ▸ hd
  · obtain ⟨v, hv, rfl⟩ := List.mem_map.1 ht
    exact integrals_ok hM
  · rcases List.mem_append.1 hb with hb | hb
    · rcases List.mem_cons.1 hb with rfl | hb
      · exact hM _ hc
      · exact hr _ (List.mem_map.2 ⟨b, hb, rfl⟩)
    · exact List.mem_singleton.1 hb ▸ hM _ ho

theorem integrate_on {u p : Bool} {out coef : Nat} {values : List Nat} :
    ∀ c ∈ integrate u p out coef values, c.On 0 := by
  refine scopes_on (by simp [Cmd.On]) fun t ht => ?_
  obtain ⟨v, hv, rfl⟩ := List.mem_map.1 ht
  exact integrals_on

theorem integrate_within {u p : Bool} {out coef : Nat} {values : List Nat} :
    Within (fun x => x = out ∨ x ∈ values) (integrate u p out coef values) := by
  refine scopes_within (by simp [Within, Cmd.changes]) fun t ht => ?_
  obtain ⟨v, hv, rfl⟩ := List.mem_map.1 ht
  exact ⟨.inr hv, integrals_within (.inr hv)⟩

theorem integrate_rest {u p : Bool} {out coef : Nat} {values : List Nat} (h : values ≠ []) (P : List (Nat × Kernel)) :
    rest ⟨true⟩ P (integrate u p out coef values) = [] := by
  cases values with
  | nil => exact absurd rfl h
  | cons v vs =>
    show rest _ _ (_ ++ _ ++ _ ++ [.free v]) = _
    exact rest_free rfl _ _ _

/-! ## Sparse domains -/

theorem sparseDomain_views {views : List (Nat × Nat)} {L : Nat → Prop} (hi : ∀ v ∈ views, L v.1)
    (hn : ∀ v ∈ views, ¬L v.2) (hd : (views.map Prod.snd).Nodup) :
    ∀ {M : Nat → Prop}, (∀ b, L b → M b) → (∀ v ∈ views, ¬M v.2) →
    good M (views.flatMap fun v => newView 106 v.2 ++ [.launch 0 ⟨107, [v.1], [v.2], 0⟩]) ∧
    ∀ b, after M (views.flatMap fun v => newView 106 v.2 ++ [.launch 0 ⟨107, [v.1], [v.2], 0⟩]) b ↔
      M b ∨ b ∈ views.map Prod.snd := by
  induction views with
  | nil => exact fun _ _ => ⟨trivial, by simp [after]⟩
  | cons v vs ih =>
    intro M hL hM
    obtain ⟨d1, d2⟩ := List.nodup_cons.1 hd
    have hv := hM v (by simp)
    obtain ⟨g, a⟩ := ih (fun w hw => hi w (List.mem_cons_of_mem _ hw)) (fun w hw => hn w (List.mem_cons_of_mem _ hw)) d2
      (M := ins v.2 M) (fun b hb => .inr (hL b hb)) (fun w hw h => h.elim
        (fun e => d1 (e ▸ List.mem_map_of_mem hw)) (hM w (List.mem_cons_of_mem _ hw)))
    have gk : good (ins v.2 M) [.launch 0 ⟨107, [v.1], [v.2], 0⟩] := by
      have := hL _ (hi v (by simp))
      simp [good, Kernel.touches, ins_iff, this]
    rw [List.flatMap_cons]
    simp only [good_append, after_append, good_newView hv, after_newView, gk, after_launch, g, and_self, true_and]
    intro b
    rw [a]
    simp only [ins_iff, List.map_cons, List.mem_cons]
    tauto

theorem sparseDomain_ok {views : List (Nat × Nat)} {L : Nat → Prop} (hi : ∀ v ∈ views, L v.1)
    (hn : ∀ v ∈ views, ¬L v.2) (hd : (views.map Prod.snd).Nodup) :
    good L (sparseDomain views) ∧ ∀ b, after L (sparseDomain views) b ↔ L b ∨ b ∈ views.map Prod.snd := by
  obtain ⟨g, a⟩ := sparseDomain_views hi hn hd (fun _ h => h) hn
  unfold sparseDomain
  rw [good_append, after_append]
  exact ⟨⟨g, trivial⟩, a⟩

theorem sparseDomain_on {views : List (Nat × Nat)} : ∀ c ∈ sparseDomain views, c.On 0 := by
  unfold sparseDomain
  rw [on_append]
  refine ⟨fun c hc => ?_, by simp [Cmd.On]⟩
  obtain ⟨v, _, hc⟩ := List.mem_flatMap.1 hc
  exact on_append.2 ⟨newView_on, by simp [Cmd.On]⟩ c hc

theorem sparseDomain_within {views : List (Nat × Nat)} :
    Within (fun x => x ∈ views.map Prod.snd) (sparseDomain views) := by
  unfold sparseDomain
  rw [within_append]
  refine ⟨fun c hc => ?_, by simp [Within, Cmd.changes]⟩
  obtain ⟨v, hv, hc⟩ := List.mem_flatMap.1 hc
  have : v.2 ∈ views.map Prod.snd := List.mem_map_of_mem hv
  exact within_append.2 ⟨within_newView this, by simpa [Within, Cmd.changes] using ⟨v.1, hv⟩⟩ c hc

/-! ## `setup_solver` -/

theorem resize_ok {line old new : Nat} {L : Nat → Prop} (ho : L old) (hn : ¬L new) :
    good L (resize line old new) ∧ after L (resize line old new) = del old (ins new L) := by
  have h1 : ins new L new := .inl rfl
  have h2 : ins new L old := .inr ho
  have gf : good (ins new L) [.free old] := ⟨h2, trivial⟩
  have af : after (ins new L) [.free old] = del old (ins new L) := rfl
  simp only [resize, good_append, after_append, good_newView hn, after_newView, good_deepCopy h1 h2, after_deepCopy, gf,
    af, and_self]

theorem dense2coo_ok {dense : Nat} {counter : Dual} {old new : Nat × Nat × Nat} {L : Nat → Prop} (hL : L dense)
    (hn : ∀ b ∈ cooTemps counter old new, ¬L b) (hd : (cooTemps counter old new).Nodup) :
    good L (dense2coo dense counter old new) ∧
      after L (dense2coo dense counter old new) = ins new.2.2 (ins new.2.1 (ins new.1 L)) := by
  obtain ⟨o1, o2, o3⟩ := old
  obtain ⟨w1, w2, w3⟩ := new
  obtain ⟨ch, cd⟩ := counter
  simp only [cooTemps, List.mem_cons, List.not_mem_nil, or_false, forall_eq_or_imp, forall_eq] at hn
  simp only [cooTemps, List.nodup_cons, List.mem_cons, List.not_mem_nil, or_false, not_or, not_false_eq_true,
    List.nodup_nil, and_true] at hd
  obtain ⟨d1, d2, d3, d4, d5, d6, d7, d8⟩ := hn
  obtain ⟨⟨a1, a2, a3, a4, a5, a6, a7⟩, ⟨b1, b2, b3, b4, b5, b6⟩, ⟨c1, c2, c3, c4, c5⟩, ⟨e1, e2, e3, e4⟩, ⟨f1, f2, f3⟩,
    ⟨g1, g2⟩, h1⟩ := hd
  have hr : ∀ {M : Nat → Prop} {line o w : Nat}, M o → ¬M w →
    good M (resize line o w) ∧ after M (resize line o w) = del o (ins w M) := fun h h' => resize_ok h h'
  have key : ∀ M : Nat → Prop, M = ins cd (ins ch (ins o3 (ins o2 (ins o1 L)))) →
      good M (resize 184 o1 w1 ++ resize 185 o2 w2 ++ resize 186 o3 w3 ++ [.free cd, .free ch]) ∧
      after M (resize 184 o1 w1 ++ resize 185 o2 w2 ++ resize 186 o3 w3 ++ [.free cd, .free ch]) =
        ins w3 (ins w2 (ins w1 L)) := by
    rintro M rfl
    obtain ⟨p1, q1⟩ := hr (M := ins cd (ins ch (ins o3 (ins o2 (ins o1 L))))) (line := 184) (o := o1) (w := w1)
      (by simp [ins_iff]) (by simp [ins_iff, Ne.symm f1, Ne.symm e2, Ne.symm c3, Ne.symm b4, Ne.symm a5, d6])
    have x1 : del o1 (ins w1 (ins cd (ins ch (ins o3 (ins o2 (ins o1 L)))))) =
        ins w1 (ins cd (ins ch (ins o3 (ins o2 L)))) := by
      rw [del_other (Ne.symm a5), del_other (Ne.symm a4), del_other (Ne.symm a3), del_other (Ne.symm a2),
        del_other (Ne.symm a1), del_ins d1]
    rw [x1] at q1
    obtain ⟨p2, q2⟩ := hr (M := ins w1 (ins cd (ins ch (ins o3 (ins o2 L))))) (line := 185) (o := o2) (w := w2)
      (by simp [ins_iff]) (by simp [ins_iff, Ne.symm g1, Ne.symm f2, Ne.symm e3, Ne.symm c4, Ne.symm b5, d7])
    have x2 : del o2 (ins w2 (ins w1 (ins cd (ins ch (ins o3 (ins o2 L)))))) =
        ins w2 (ins w1 (ins cd (ins ch (ins o3 L)))) := by
      rw [del_other (Ne.symm b5), del_other (Ne.symm b4), del_other (Ne.symm b3), del_other (Ne.symm b2),
        del_other (Ne.symm b1), del_ins d2]
    rw [x2] at q2
    obtain ⟨p3, q3⟩ := hr (M := ins w2 (ins w1 (ins cd (ins ch (ins o3 L))))) (line := 186) (o := o3) (w := w3)
      (by simp [ins_iff]) (by simp [ins_iff, Ne.symm h1, Ne.symm g2, Ne.symm f3, Ne.symm e4, Ne.symm c5, d8])
    have x3 : del o3 (ins w3 (ins w2 (ins w1 (ins cd (ins ch (ins o3 L)))))) =
        ins w3 (ins w2 (ins w1 (ins cd (ins ch L)))) := by
      rw [del_other (Ne.symm c5), del_other (Ne.symm c4), del_other (Ne.symm c3), del_other (Ne.symm c2),
        del_other (Ne.symm c1), del_ins d3]
    rw [x3] at q3
    have x4 : del cd (ins w3 (ins w2 (ins w1 (ins cd (ins ch L))))) = ins w3 (ins w2 (ins w1 (ins ch L))) := by
      rw [del_other (Ne.symm f3), del_other (Ne.symm f2), del_other (Ne.symm f1), del_ins]
      simp [ins_iff, Ne.symm e1, d5]
    have x5 : del ch (ins w3 (ins w2 (ins w1 (ins ch L)))) = ins w3 (ins w2 (ins w1 L)) := by
      rw [del_other (Ne.symm e4), del_other (Ne.symm e3), del_other (Ne.symm e2), del_ins d4]
    have p4 : good (ins w3 (ins w2 (ins w1 (ins cd (ins ch L))))) [.free cd, .free ch] := by
      refine ⟨by simp [ins_iff], ?_, trivial⟩
      rw [x4]
      simp [ins_iff]
    have q4 : after (ins w3 (ins w2 (ins w1 (ins cd (ins ch L))))) [.free cd, .free ch] = ins w3 (ins w2 (ins w1 L)) := by
      show del ch (del cd _) = _
      rw [x4, x5]
    simp only [good_append, after_append, p1, q1, p2, q2, p3, q3, p4, q4, and_self]
  have n2 : ¬ins o1 L o2 := by simp [ins_iff, Ne.symm a1, d2]
  have n3 : ¬ins o2 (ins o1 L) o3 := by simp [ins_iff, Ne.symm a2, Ne.symm b1, d3]
  have n4 : ¬ins o3 (ins o2 (ins o1 L)) ch := by simp [ins_iff, Ne.symm a3, Ne.symm b2, Ne.symm c1, d4]
  have n5 : ¬ins ch (ins o3 (ins o2 (ins o1 L))) cd := by
    simp [ins_iff, Ne.symm a4, Ne.symm b3, Ne.symm c2, Ne.symm e1, d5]
  have hh : ins cd (ins ch (ins o3 (ins o2 (ins o1 L)))) ch := by simp [ins_iff]
  have hc : ins cd (ins ch (ins o3 (ins o2 (ins o1 L)))) cd := by simp [ins_iff]
  obtain ⟨k1, k2⟩ := key _ rfl
  have gh : good (ins cd (ins ch (ins o3 (ins o2 (ins o1 L))))) [.host ⟨159, [], [ch], 0⟩] := by
    simp [good, Kernel.touches, hh]
  have ah : ∀ (M : Nat → Prop) k, after M [.host k] = M := fun _ _ => rfl
  have gk : good (ins cd (ins ch (ins o3 (ins o2 (ins o1 L))))) [.launch 0 ⟨166, [dense], [o1, o2, o3, cd], 0⟩] := by
    simp [good, Kernel.touches, ins_iff, hL]
  have gr : good (ins cd (ins ch (ins o3 (ins o2 (ins o1 L))))) [.host ⟨184, [ch], [], 0⟩] := by
    simp [good, Kernel.touches, hh]
  have e : dense2coo dense ⟨ch, cd⟩ (o1, o2, o3) (w1, w2, w3) =
      newView 149 o1 ++ newView 151 o2 ++ newView 153 o3 ++ newView 156 ch ++ newView 156 cd ++
      [.host ⟨159, [], [ch], 0⟩] ++ deepCopy 161 cd ch ++ [.launch 0 ⟨166, [dense], [o1, o2, o3, cd], 0⟩] ++
      deepCopy 183 ch cd ++ [.host ⟨184, [ch], [], 0⟩] ++
      (resize 184 o1 w1 ++ resize 185 o2 w2 ++ resize 186 o3 w3 ++ [.free cd, .free ch]) := by
    simp only [dense2coo, Dual.push, Dual.pull, List.append_assoc]
  rw [e, good_append, after_append]
  simp only [good_append, after_append, good_newView d1, good_newView n2, good_newView n3, good_newView n4,
    good_newView n5, after_newView, gh, ah, good_deepCopy hc hh, good_deepCopy hh hc, after_deepCopy, gk, gr, after_launch,
    k1, k2, and_self]

theorem directSetup_ok {line : Nat} {d : Dual} {piv : Option Dual} {L : Nat → Prop} (hh : L d.onHost) (hd : L d.onDevice)
    (hp : ∀ e, piv = some e → L e.onHost ∧ L e.onDevice) :
    good L (directSetup line d piv) ∧ after L (directSetup line d piv) = L := by
  cases piv with
  | none => simp [directSetup, Dual.push, deepCopy, good, after, Kernel.touches, hh, hd]
  | some e =>
    obtain ⟨h1, h2⟩ := hp e rfl
    simp [directSetup, Dual.push, deepCopy, good, after, Kernel.touches, hh, hd, h1, h2]

theorem Blocks.setup_ok (B : Blocks) {L : Nat → Prop} (ho : ∀ b ∈ B.owned, L b)
    (h1 : ∀ b ∈ cooTemps B.counter B.old₁ B.new₁, ¬L b) (d1 : (cooTemps B.counter B.old₁ B.new₁).Nodup)
    (h2 : ∀ b ∈ cooTemps B.counter B.old₂ B.new₂, ¬L b) (d2 : (cooTemps B.counter B.old₂ B.new₂).Nodup)
    (hn : ∀ b ∈ cooTemps B.counter B.old₂ B.new₂, b ≠ B.new₁.1 ∧ b ≠ B.new₁.2.1 ∧ b ≠ B.new₁.2.2) :
    good L (B.setup true) ∧ ∀ b, after L (B.setup true) b ↔ L b ∨ b ∈ B.made := by
  have qh : L B.q.onHost := ho _ (by simp [Blocks.owned])
  have qd : L B.q.onDevice := ho _ (by simp [Blocks.owned])
  have th : L B.topRight.onHost := ho _ (by simp [Blocks.owned])
  have td : L B.topRight.onDevice := ho _ (by simp [Blocks.owned])
  have bh : L B.bottomLeft.onHost := ho _ (by simp [Blocks.owned])
  have bd : L B.bottomLeft.onDevice := ho _ (by simp [Blocks.owned])
  have rh : L B.bottomRight.onHost := ho _ (by simp [Blocks.owned])
  have rd : L B.bottomRight.onDevice := ho _ (by simp [Blocks.owned])
  have ph : L B.bottomRightPivots.onHost := ho _ (by simp [Blocks.owned])
  have pd : L B.bottomRightPivots.onDevice := ho _ (by simp [Blocks.owned])
  have qp : ∀ e, B.qPivots = some e → L e.onHost ∧ L e.onDevice := fun e he =>
    ⟨ho _ (by simp [Blocks.owned, he]), ho _ (by simp [Blocks.owned, he])⟩
  obtain ⟨g1, a1⟩ := directSetup_ok (line := 109) qh qd qp
  have qm : ∀ c ∈ (Solver.direct 148 B.qDevice).mats, L c := by
    intro c hc
    rcases List.mem_cons.1 hc with rfl | hc
    · exact qd
    · cases hq : B.qPivots with
      | none => simp [hq] at hc
      | some e =>
        simp only [hq, Option.map_some, Option.toList_some, List.mem_singleton] at hc
        exact hc ▸ (qp e hq).2
  obtain ⟨g2, a2⟩ := (Solver.direct 148 B.qDevice).solve_ok false B.topRight.onDevice td qm (by simp [Solver.temps]) trivial
  obtain ⟨g3, a3⟩ := dense2coo_ok td h1 d1
  obtain ⟨L₁, e₁⟩ : ∃ L₁, L₁ = ins B.new₁.2.2 (ins B.new₁.2.1 (ins B.new₁.1 L)) := ⟨_, rfl⟩
  rw [← e₁] at a3
  have up₁ : ∀ {x}, L x → L₁ x := fun h => e₁ ▸ .inr (.inr (.inr h))
  have i₁ : ∀ b, L₁ b ↔ b = B.new₁.2.2 ∨ b = B.new₁.2.1 ∨ b = B.new₁.1 ∨ L b := fun b => by rw [e₁]; exact Iff.rfl
  clear e₁
  obtain ⟨g4, a4⟩ := dense2coo_ok (L := L₁) (up₁ bd) (counter := B.counter) (old := B.old₂) (new := B.new₂)
    (fun b hb h => by
      obtain ⟨n1, n2, n3⟩ := hn b hb
      rcases (i₁ b).1 h with h | h | h | h
      · exact n3 h
      · exact n2 h
      · exact n1 h
      · exact h2 b hb h) d2
  obtain ⟨L₂, e₂⟩ : ∃ L₂, L₂ = ins B.new₂.2.2 (ins B.new₂.2.1 (ins B.new₂.1 L₁)) := ⟨_, rfl⟩
  rw [← e₂] at a4
  have up₂ : ∀ {x}, L x → L₂ x := fun h => e₂ ▸ .inr (.inr (.inr (up₁ h)))
  have i₂ : ∀ b, L₂ b ↔ b = B.new₂.2.2 ∨ b = B.new₂.2.1 ∨ b = B.new₂.1 ∨ L₁ b := fun b => by rw [e₂]; exact Iff.rfl
  clear e₂
  obtain ⟨g5, a5⟩ := directSetup_ok (line := 67) (piv := some B.bottomRightPivots) (up₂ rh) (up₂ rd)
    (fun e he => by cases he; exact ⟨up₂ ph, up₂ pd⟩)
  have gs : good L₂ (schur true B.topRight B.bottomLeft B.bottomRight) := by
    refine ⟨fun b hb => up₂ ?_, trivial⟩
    simp only [Kernel.touches, List.mem_append, List.mem_cons, List.not_mem_nil, or_false] at hb
    rcases hb with (rfl | rfl) | rfl <;> assumption
  have as : after L₂ (schur true B.topRight B.bottomLeft B.bottomRight) = L₂ := rfl
  have t : good L (B.setup true) ∧ after L (B.setup true) = L₂ := by
    simp only [Blocks.setup, Dual.push, Dual.pull, good_append, after_append, g1, a1, good_deepCopy td th, after_deepCopy,
      g2, a2, g3, a3, good_deepCopy (up₁ th) (up₁ td), good_deepCopy (up₁ bd) (up₁ bh), g4, a4, gs, as, g5, a5, and_self]
  refine ⟨t.1, fun b => ?_⟩
  rw [t.2, i₂, i₁]
  simp only [Blocks.made, List.mem_cons, List.not_mem_nil, or_false]
  constructor
  · rintro (h | h | h | h | h | h | h) <;> simp [h]
  · rintro (h | h | h | h | h | h | h) <;> simp [h]

/-- The host commands before the first fence. -/
theorem directSetup_disc {cfg : Config} {P : List (Nat × Kernel)} {line : Nat} {d : Dual} {piv : Option Dual}
    (hq : ∀ e ∈ P, ∀ b ∈ e.2.touches, ∀ c ∈ directSetup line d piv, b ∉ buffers c) :
    Disc cfg P (directSetup line d piv) ∧ rest cfg P (directSetup line d piv) = [] := by
  have hc : ∀ k, Cmd.host k ∈ directSetup line d piv → ∀ e ∈ P, e.2.conflicts k = false := fun k hk e he =>
    Kernel.conflicts_false.2 ⟨fun b hb hb' => hq e he b (Kernel.mem_touches_of_writes hb) _ hk hb',
      fun b hb hb' => hq e he b hb' _ hk (Kernel.mem_touches_of_writes hb)⟩
  cases piv with
  | none =>
    have := hc _ (List.mem_append.2 (.inl (List.mem_singleton.2 rfl)))
    exact ⟨⟨this, by simp [Dual.push, deepCopy, Disc]⟩, rfl⟩
  | some e =>
    have h1 := hc _ (List.mem_append.2 (.inl (List.mem_singleton.2 rfl)))
    have h2 := hc ⟨line, [], [e.onHost], 1⟩ (by simp [directSetup])
    exact ⟨⟨h1, h2, by simp [Dual.push, deepCopy, Disc]⟩, rfl⟩

theorem directSetup_rest {cfg : Config} {P : List (Nat × Kernel)} {line : Nat} {d : Dual} {piv : Option Dual} :
    rest cfg P (directSetup line d piv) = [] := by
  cases piv <;> rfl

theorem Blocks.setup_disc {cfg : Config} {P : List (Nat × Kernel)} (B : Blocks)
    (hq : ∀ e ∈ P, ∀ b ∈ e.2.touches, ∀ c ∈ B.setup true, b ∉ buffers c) :
    Disc cfg P (B.setup true) ∧ rest cfg P (B.setup true) = [] := by
  have h0 := directSetup_disc (cfg := cfg) (P := P) (line := 109) (d := B.q) (piv := B.qPivots)
    (fun e he b hb c hc => hq e he b hb c (by simp only [Blocks.setup, List.mem_append]; tauto))
  have hcopy : ∀ {P : List (Nat × Kernel)} {line x y : Nat}, Disc cfg P (deepCopy line x y) := by simp [deepCopy, Disc]
  have rcopy : ∀ {P : List (Nat × Kernel)} {line x y : Nat}, rest cfg P (deepCopy line x y) = [] := fun {_ _ _ _} => rfl
  have hcoo : ∀ {k : Kernel} {x : Nat} {o w : Nat × Nat × Nat},
      Disc cfg ([] ++ [(0, k)]) (dense2coo x B.counter o w) ∧
      rest cfg ([] ++ [(0, k)]) (dense2coo x B.counter o w) = [] := by
    intro k x o w
    obtain ⟨f⟩ := cfg
    cases f <;> simp [dense2coo, Dual.push, Dual.pull, deepCopy, newView, resize, Disc, rest]
  have hcoo' : ∀ {x : Nat} {o w : Nat × Nat × Nat},
      Disc cfg [] (dense2coo x B.counter o w) ∧ rest cfg [] (dense2coo x B.counter o w) = [] := by
    intro x o w
    obtain ⟨f⟩ := cfg
    cases f <;> simp [dense2coo, Dual.push, Dual.pull, deepCopy, newView, resize, Disc, rest]
  have hk : ∀ k : Kernel, Disc cfg [] [.launch 0 k] := by simp [Disc]
  have rk : ∀ k : Kernel, rest cfg [] [.launch 0 k] = [] ++ [(0, k)] := fun _ => rfl
  have hs : Disc cfg [] (schur true B.topRight B.bottomLeft B.bottomRight) := by simp [schur, hostFor, Disc]
  have rs : rest cfg [] (schur true B.topRight B.bottomLeft B.bottomRight) = [] := rfl
  have hl := directSetup_disc (cfg := cfg) (P := []) (line := 67) (d := B.bottomRight) (piv := some B.bottomRightPivots)
    (by simp)
  simp only [Blocks.setup, Solver.solve, Dual.push, Dual.pull, Disc_append, rest_append, h0, hcopy, rcopy, hk, rk, hcoo,
    hcoo', hs, rs, hl, and_self]

/-- The buffers that `setup_solver` changes. -/
def Blocks.changed (B : Blocks) : List Nat :=
  B.owned ++ cooTemps B.counter B.old₁ B.new₁ ++ cooTemps B.counter B.old₂ B.new₂

end DDC.Async
