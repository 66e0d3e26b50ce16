import Verif.Lemmas.AsyncOther

/-!
# C66: the functions that launch kernels behave as if every kernel ran when it is launched

`Model/Async.lean` gives the commands of the functions, `Spec/Async.lean` what a synchronous execution computes, and which
states a function may be called in (kernels of earlier calls may still wait).
-/

namespace DDC.Props

open DDC.Async DDC.Spec

variable {V : Type} {W : World V}

/-- The general rule: a sequence of calls that launch on one instance and release their temporaries with a function that
waits computes what the calls give one after the other, without deadlock, in every schedule. -/
theorem C66_one_instance {i : Nat} {s : State V} {m final : Mem V} (hs : Called i W s m)
    (hone : ∀ c ∈ s.prog, match c with | .launch j _ => j = i | .host _ => False | _ => True)
    (hv : sync W s.prog m = .ok final) : Runs ⟨true⟩ W s m final := by
  have ho : ∀ c ∈ s.prog, c.On i := fun c hc => by
    have := hone c hc
    cases c <;> exact this
  have h := Inv.called hs (disc_on (cfg := ⟨true⟩) rfl ho hs.quiet) hv
  exact ⟨hv, h.asIfSynchronous, h.canFinish⟩

/-- `SplineBuilder::operator()`: the result, and no kernel waits when it returns; it changes the spline only. -/
theorem C66_builder (B : Builder) {s : State V} {m : Mem V} {spline vals dmin dmax tr : Nat} (hs : Called 0 W s m)
    (hp : s.prog = B.call spline vals dmin dmax tr) (h1 : (m spline).isSome) (h2 : (m vals).isSome)
    (h3 : B.lower = .hermite → (m dmin).isSome) (h4 : B.upper = .hermite → (m dmax).isSome)
    (h5 : ∀ b ∈ B.solver.mats, (m b).isSome) (h6 : m tr = none)
    (h7 : ∀ b ∈ B.solver.temps, m b = none ∧ b ≠ tr) (h8 : B.solver.Distinct) :
    ∃ final, Runs ⟨true⟩ W s m final ∧ ReturnsSynchronised ⟨true⟩ W s ∧ ∀ b, b ≠ spline → final b = m b := by
  obtain ⟨g, a⟩ := B.call_ok (L := live m) (spline := spline) (vals := vals) (dmin := dmin) (dmax := dmax) (tr := tr) h1 h2
    h3 h4 h5 (live_of_none h6) (fun b hb => ⟨live_of_none (h7 b hb).1, (h7 b hb).2⟩) h8
  obtain ⟨final, hv, hl, hi⟩ := onInstance hs (by rw [hp]; exact B.call_on _ _ _ _ _) (by rw [hp]; exact g)
  refine ⟨final, ⟨hv, hi.asIfSynchronous, hi.canFinish⟩, hi.returns (by rw [hp]; exact rest_free rfl _ _ _), fun b hb => ?_⟩
  rw [hp] at hl hv
  rw [a] at hl
  by_cases hd : m b = none
  · have := hl b
    simp only [live, hd, Option.isSome_none, Bool.false_eq_true, iff_false, Option.not_isSome_iff_eq_none] at this
    rw [this, hd]
  · refine frame_of hv (B.call_within _ _ _ _ _) ?_
    rintro (h | rfl | h)
    · exact hb h
    · exact hd h6
    · exact hd (h7 b h).1

/-- `SplineBuilder2D::operator()`. -/
theorem C66_builder_2d (B₁ B₂ : Builder) {s : State V} {m : Mem V}
    {spline vals dmin1 dmax1 dmin2 dmax2 mm xm mx xx t1 t2 t3 tr : Nat} (hs : Called 0 W s m)
    (hp : s.prog = B₁.call2 B₂ spline vals dmin1 dmax1 dmin2 dmax2 mm xm mx xx t1 t2 t3 tr) (h1 : (m spline).isSome)
    (h2 : Needs2 B₁ B₂ (live m) vals dmin1 dmax1 dmin2 dmax2 mm xm mx xx)
    (h3 : ∀ b ∈ [t1, t2, t3, tr], m b = none) (h4 : [t1, t2, t3, tr].Nodup)
    (h5 : Temps B₁ (live m) [t1, t2, t3, tr]) (h6 : Temps B₂ (live m) [t1, t2, t3, tr]) :
    ∃ final, Runs ⟨true⟩ W s m final ∧ ReturnsSynchronised ⟨true⟩ W s ∧ ∀ b, b ≠ spline → final b = m b := by
  obtain ⟨g, a⟩ := B₁.call2_ok B₂ (L := live m) h1 h2 (fun b hb => live_of_none (h3 b hb)) h4 h5 h6
  obtain ⟨final, hv, hl, hi⟩ := onInstance hs (by rw [hp]; exact B₁.call2_on B₂ _ _ _ _ _ _ _ _ _ _ _ _ _ _)
    (by rw [hp]; exact g)
  refine ⟨final, ⟨hv, hi.asIfSynchronous, hi.canFinish⟩, hi.returns ?_, fun b hb => ?_⟩
  · rw [hp]
    unfold Builder.call2
    rw [rest_append]
    simp [rest]
  rw [hp] at hl hv
  rw [a] at hl
  by_cases hd : m b = none
  · have := hl b
    simp only [live, hd, Option.isSome_none, Bool.false_eq_true, iff_false, Option.not_isSome_iff_eq_none] at this
    rw [this, hd]
  · have hd' : live m b := Option.isSome_iff_ne_none.2 hd
    refine frame_of hv (B₁.call2_within B₂ _ _ _ _ _ _ _ _ _ _ _ _ _ _) ?_
    rintro (h | h | h | h)
    · exact hb h
    · exact hd (h3 b h)
    · exact h5.dead b h hd'
    · exact h6.dead b h hd'

/-- `SplineBuilder3D::operator()`. -/
theorem C66_builder_3d (B₁ B₂ B₃ : Builder) {s : State V} {m : Mem V} {spline vals : Nat} {D : Derivs3} {T : Temps3}
    (hs : Called 0 W s m) (hp : s.prog = B₁.call3 B₂ B₃ spline vals D T) (h1 : (m spline).isSome)
    (h2 : Needs3 B₁ B₂ B₃ (live m) vals D) (h3 : ∀ b ∈ T.all, m b = none) (h4 : T.all.Nodup)
    (h5 : Temps B₁ (live m) T.all) (h6 : Temps B₂ (live m) T.all) (h7 : Temps B₃ (live m) T.all) :
    ∃ final, Runs ⟨true⟩ W s m final ∧ ReturnsSynchronised ⟨true⟩ W s ∧ ∀ b, b ≠ spline → final b = m b := by
  obtain ⟨g, a⟩ := B₁.call3_ok B₂ B₃ (L := live m) h1 h2 (fun b hb => live_of_none (h3 b hb)) h4 h5 h6 h7
  obtain ⟨final, hv, hl, hi⟩ := onInstance hs (by rw [hp]; exact B₁.call3_on B₂ B₃ _ _ _ _) (by rw [hp]; exact g)
  refine ⟨final, ⟨hv, hi.asIfSynchronous, hi.canFinish⟩, hi.returns ?_, fun b hb => ?_⟩
  · rw [hp]
    show rest _ _ (_ ++ _ ++ _ ++ [.free _]) = _
    exact rest_free rfl _ _ _
  rw [hp] at hl hv
  rw [a] at hl
  by_cases hd : m b = none
  · have := hl b
    simp only [live, hd, Option.isSome_none, Bool.false_eq_true, iff_false, Option.not_isSome_iff_eq_none] at this
    rw [this, hd]
  · have hd' : live m b := Option.isSome_iff_ne_none.2 hd
    refine frame_of hv (B₁.call3_within B₂ B₃ _ _ _ _) ?_
    rintro (h | h | h | h | h)
    · exact hb h
    · exact hd (h3 b h)
    · exact h5.dead b h hd'
    · exact h6.dead b h hd'
    · exact h7.dead b h hd'

/-- `SplineBuilder::quadrature_coefficients`: the three chunks exist and can be read at once. -/
theorem C66_quadrature (B : Builder) {u : Bool} {s : State V} {m : Mem V} {ib mirror o1 o2 o3 : Nat}
    (hs : Called 0 W s m) (hp : s.prog = B.quadrature u ib mirror o1 o2 o3)
    (h1 : [ib, mirror, o1, o2, o3].Nodup) (h2 : ∀ b ∈ [ib, mirror, o1, o2, o3], m b = none)
    (h3 : Temps B (live m) [ib, mirror]) :
    ∃ final, Runs ⟨true⟩ W s m final ∧ ReturnsSynchronised ⟨true⟩ W s ∧ (final o1).isSome ∧ (final o2).isSome ∧
      (final o3).isSome ∧ ∀ b, b ∉ [o1, o2, o3] → final b = m b := by
  obtain ⟨g, a⟩ := B.quadrature_ok (u := u) (L := live m) h1 (fun b hb => live_of_none (h2 b hb)) h3
  obtain ⟨final, hv, hl, hi⟩ := onInstance hs (by rw [hp]; exact B.quadrature_on _ _ _ _ _ _) (by rw [hp]; exact g)
  rw [hp, a] at hl
  refine ⟨final, ⟨hv, hi.asIfSynchronous, hi.canFinish⟩, hi.returns (by rw [hp]; exact B.quadrature_rest _ _ _ _ _ _ _),
    (hl o1).2 (.inr (.inr (.inl rfl))), (hl o2).2 (.inr (.inl rfl)), (hl o3).2 (.inl rfl), fun b hb => ?_⟩
  simp only [List.mem_cons, List.not_mem_nil, or_false, not_or] at hb
  by_cases hd : m b = none
  · have := hl b
    simp only [ins_iff, live, hd, Option.isSome_none, Bool.false_eq_true, or_false, hb.1, hb.2.1, hb.2.2, iff_false,
      Option.not_isSome_iff_eq_none] at this
    rw [this, hd]
  · rw [hp] at hv
    refine frame_of hv (B.quadrature_within _ _ _ _ _ _) ?_
    rintro (h | h)
    · exact hd (h2 b h)
    · exact h3.dead b h (Option.isSome_iff_ne_none.2 hd)

/-- `integrate` of the evaluators: no kernel waits when it returns, because a temporary is released. -/
theorem C66_integrate {u p : Bool} {s : State V} {m : Mem V} {out coef : Nat} {values : List Nat} (hs : Called 0 W s m)
    (hp : s.prog = integrate u p out coef values) (h1 : (m out).isSome) (h2 : (m coef).isSome)
    (h3 : ∀ v ∈ values, m v = none) (h4 : values.Nodup) (h5 : values ≠ []) :
    ∃ final, Runs ⟨true⟩ W s m final ∧ ReturnsSynchronised ⟨true⟩ W s ∧ ∀ b, b ≠ out → final b = m b := by
  obtain ⟨g, a⟩ := integrate_ok (u := u) (p := p) (L := live m) h1 h2 (fun b hb => live_of_none (h3 b hb)) h4
  obtain ⟨final, hv, hl, hi⟩ := onInstance hs (by rw [hp]; exact integrate_on) (by rw [hp]; exact g)
  refine ⟨final, ⟨hv, hi.asIfSynchronous, hi.canFinish⟩, hi.returns (by rw [hp]; exact integrate_rest h5 _), fun b hb => ?_⟩
  rw [hp] at hl hv
  rw [a] at hl
  by_cases hd : m b = none
  · have := hl b
    simp only [live, hd, Option.isSome_none, Bool.false_eq_true, iff_false, Option.not_isSome_iff_eq_none] at this
    rw [this, hd]
  · refine frame_of hv integrate_within ?_
    rintro (h | h)
    · exact hb h
    · exact hd (h3 b h)

/-- `operator()` and `deriv` of the evaluators: the result, when the kernel has run; only this kernel and those that
waited before may wait when the function returns. -/
theorem C66_evaluator {line : Nat} {s : State V} {m : Mem V} {out : Nat} {ins : List Nat} (hs : Called 0 W s m)
    (hp : s.prog = evaluate line out ins) (h1 : (m out).isSome) (h2 : ∀ b ∈ ins, (m b).isSome) :
    ∃ final, Runs ⟨true⟩ W s m final ∧ (∀ b, b ≠ out → final b = m b) ∧
      ∀ ws s', s.exec ⟨true⟩ W ws = .ok s' → s'.prog = [] →
        ∀ x ∈ s'.pending, x ∈ s.pending ∨ (x.1 = 0 ∧ x.2.reads = ins ∧ x.2.writes = [out]) := by
  obtain ⟨final, hv, hl, hi⟩ := onInstance hs (by rw [hp]; simp [evaluate, Cmd.On])
    (by
      rw [hp]
      refine ⟨fun b hb => ?_, trivial⟩
      rcases List.mem_append.1 hb with hb | hb
      · exact h2 b hb
      · exact List.mem_singleton.1 hb ▸ h1)
  refine ⟨final, ⟨hv, hi.asIfSynchronous, hi.canFinish⟩, fun b hb => ?_, fun ws s' e hw x hx => ?_⟩
  · rw [hp] at hv
    exact frame_of (S := fun x => x = out) hv (by simp [Within, evaluate, Cmd.changes]) hb
  · have := hi.waiting e hw x hx
    rw [hp] at this
    rcases List.mem_append.1 this with h | h
    · exact .inl h
    · rw [List.mem_singleton.1 h]
      exact .inr ⟨rfl, rfl, rfl⟩

/-- `integrals` on any instance: the kernels run in order. -/
theorem C66_integrals {i : Nat} {u p r : Bool} {s : State V} {m : Mem V} {vals : Nat} (hs : Called i W s m)
    (hp : s.prog = integrals i u p r vals) (h : (m vals).isSome) :
    ∃ final, Runs ⟨true⟩ W s m final ∧ ∀ b, b ≠ vals → final b = m b := by
  obtain ⟨final, hv, hl, hi⟩ := onInstance hs (by rw [hp]; exact integrals_on)
    (by rw [hp]; exact (integrals_ok (L := live m) h).1)
  refine ⟨final, ⟨hv, hi.asIfSynchronous, hi.canFinish⟩, fun b hb => ?_⟩
  rw [hp] at hv
  exact frame_of hv (integrals_within (S := fun x => x = vals) rfl) hb

/-- `fft` and `ifft` on any instance: the scaling follows the transform; the input may be the output. -/
theorem C66_fft {i : Nat} {full : Bool} {s : State V} {m : Mem V} {out inp : Nat} (hs : Called i W s m)
    (hp : s.prog = fft i out inp full) (h1 : (m out).isSome) (h2 : (m inp).isSome) :
    ∃ final, Runs ⟨true⟩ W s m final ∧ ∀ b, b ≠ out → final b = m b := by
  have h1' : live m out := h1
  have h2' : live m inp := h2
  obtain ⟨final, hv, hl, hi⟩ := onInstance hs (by rw [hp]; cases full <;> simp [fft, Cmd.On])
    (by rw [hp]; cases full <;> simp [fft, good, Kernel.touches, h1', h2'])
  refine ⟨final, ⟨hv, hi.asIfSynchronous, hi.canFinish⟩, fun b hb => ?_⟩
  rw [hp] at hv
  refine frame_of (S := fun x => x = out) hv ?_ hb
  cases full <;> simp [Within, fft, Cmd.changes]

/-- The constructor of `SparseDiscreteDomain`: one new buffer for every dimension, and no kernel of the default instance
waits when it returns. -/
theorem C66_sparse_domain {s : State V} {m : Mem V} {views : List (Nat × Nat)} (hs : Called 0 W s m)
    (hp : s.prog = sparseDomain views) (h1 : ∀ v ∈ views, (m v.1).isSome) (h2 : ∀ v ∈ views, m v.2 = none)
    (h3 : (views.map Prod.snd).Nodup) :
    ∃ final, Runs ⟨true⟩ W s m final ∧ (∀ v ∈ views, (final v.2).isSome) ∧
      (∀ b, b ∉ views.map Prod.snd → final b = m b) ∧
      ∀ ws s', s.exec ⟨true⟩ W ws = .ok s' → s'.prog = [] → ∀ x ∈ s'.pending, x.1 ≠ 0 := by
  obtain ⟨g, a⟩ := sparseDomain_ok (L := live m) h1 (fun v hv => live_of_none (h2 v hv)) h3
  obtain ⟨final, hv, hl, hi⟩ := onInstance hs (by rw [hp]; exact sparseDomain_on) (by rw [hp]; exact g)
  refine ⟨final, ⟨hv, hi.asIfSynchronous, hi.canFinish⟩, fun v hv' => ?_, fun b hb => ?_, fun ws s' e hw x hx => ?_⟩
  · rw [hl, hp, a]
    exact .inr (List.mem_map_of_mem hv')
  · rw [hp] at hv
    exact frame_of hv sparseDomain_within hb
  · have := hi.waiting e hw x hx
    rw [hp, sparseDomain, rest_append] at this
    have := (List.mem_filter.1 this).2
    simpa using this

/-- `create_mirror_and_copy`: the copy can be read at once. -/
theorem C66_mirror_and_copy {s : State V} {m : Mem V} {mirror src : Nat} (hs : Called 0 W s m)
    (hp : s.prog = mirrorAndCopy mirror src) (h1 : (m src).isSome) (h2 : m mirror = none) :
    ∃ final, Runs ⟨true⟩ W s m final ∧ ReturnsSynchronised ⟨true⟩ W s ∧ (final mirror).isSome ∧
      ∀ b, b ≠ mirror → final b = m b := by
  have h1' : live m src := h1
  obtain ⟨final, hv, hl, hi⟩ := onInstance hs (by rw [hp]; simp [mirrorAndCopy, deepCopy, Cmd.On])
    (by rw [hp]; simp [mirrorAndCopy, deepCopy, good, Kernel.touches, live_of_none h2, ins_iff, h1'])
  refine ⟨final, ⟨hv, hi.asIfSynchronous, hi.canFinish⟩, hi.returns (by rw [hp]; rfl), ?_, fun b hb => ?_⟩
  · rw [hl, hp]
    exact .inl rfl
  · rw [hp] at hv
    exact frame_of (S := fun x => x = mirror) hv (by simp [Within, mirrorAndCopy, deepCopy, Cmd.changes]) hb

/-- `SplinesLinearProblem2x2Blocks::setup_solver`, with a host execution space whose kernels have run when they are
launched, and kernels that wait and do not touch the buffers of the problem. -/
theorem C66_setup_solver (B : Blocks) {cfg : Config} {s : State V} {m : Mem V} (hp : s.prog = B.setup true)
    (hf : flush W s.pending s.mem = .ok m)
    (ho : s.pending.Pairwise fun e f => e.1 ≠ f.1 → e.2.conflicts f.2 = false)
    (hq : ∀ e ∈ s.pending, ∀ b ∈ e.2.touches, ∀ c ∈ s.prog, b ∉ buffers c) (h0 : ∀ b ∈ B.owned, (m b).isSome)
    (h1 : ∀ b ∈ cooTemps B.counter B.old₁ B.new₁, m b = none) (d1 : (cooTemps B.counter B.old₁ B.new₁).Nodup)
    (h2 : ∀ b ∈ cooTemps B.counter B.old₂ B.new₂, m b = none) (d2 : (cooTemps B.counter B.old₂ B.new₂).Nodup)
    (hn : ∀ b ∈ cooTemps B.counter B.old₂ B.new₂, b ≠ B.new₁.1 ∧ b ≠ B.new₁.2.1 ∧ b ≠ B.new₁.2.2) :
    ∃ final, Runs cfg W s m final ∧ ReturnsSynchronised cfg W s ∧
      ∀ b, (final b).isSome ↔ (m b).isSome ∨ b ∈ B.made := by
  obtain ⟨g, a⟩ := B.setup_ok (L := live m) h0 (fun b hb => live_of_none (h1 b hb)) d1
    (fun b hb => live_of_none (h2 b hb)) d2 hn
  obtain ⟨final, hv, hl⟩ := sync_good (W := W) (fun b => Iff.rfl) g
  rw [← hp] at hv
  obtain ⟨k1, k2⟩ := B.setup_disc (cfg := cfg) (P := s.pending) (by rw [← hp]; exact hq)
  rw [← hp] at k1 k2
  have hi : Inv cfg W s s.pending final := ⟨fun _ h => h, ho, k1, Res.bind_eq_ok.2 ⟨m, hf, hv⟩⟩
  exact ⟨final, ⟨hv, hi.asIfSynchronous, hi.canFinish⟩, hi.returns k2, fun b => (hl b).trans (a b)⟩

/-! ## What the functions rely on -/

/-- Contents that no theorem depends on. -/
private def unitWorld : World Unit := ⟨fun _ _ _ => (), fun _ => ()⟩

/-- The buffers below `n` are live. -/
private def firstLive (n : Nat) : Mem Unit := fun b => if b < n then some () else none

private theorem eq_ub {α : Type} {x : Res α} (h : (match x with | .ub => true | _ => false) = true) : x = .ub := by
  cases x <;> first | rfl | cases h

/-- If `kokkos_free` did not wait, `SplineBuilder::operator()` would release `spline_tr_alloc` under its kernels: the host
alone reaches the release with all the kernels waiting. -/
theorem C66_needs_waiting_free :
    (⟨firstLive 3, [], (Builder.mk .greville .greville false (.direct 148 [2])).call 0 1 1 1 3⟩ : State Unit).exec ⟨false⟩
      unitWorld (List.replicate 8 .host) = .ub := by
  exact eq_ub (by decide +kernel)

/-- The evaluators return with their kernel waiting: a host that reads the result without a fence has a data race, with
one it has none. -/
theorem C66_evaluator_returns_early :
    (⟨firstLive 3, [], evaluate 262 0 [1, 2] ++ [.host ⟨0, [0], [], 0⟩]⟩ : State Unit).exec ⟨true⟩ unitWorld
      [.host, .host] = .ub ∧
    ∀ ws, ∃ s', (⟨firstLive 3, [], evaluate 262 0 [1, 2] ++ [.fence] ++ [.host ⟨0, [0], [], 0⟩]⟩ : State Unit).exec
      ⟨true⟩ unitWorld ws = .ok s' := by
  refine ⟨eq_ub (by decide +kernel), fun ws => ?_⟩
  have hi : Inv ⟨true⟩ unitWorld
      (⟨firstLive 3, [], evaluate 262 0 [1, 2] ++ [.fence] ++ [.host ⟨0, [0], [], 0⟩]⟩ : State Unit) []
      (fun b => if b < 3 then some () else none) := by
    refine ⟨by simp, by simp, by simp [evaluate, Disc], ?_⟩
    show (Res.ok _ : Res (Mem Unit)) = _
    congr 1
    funext b
    simp only [List.mem_singleton, List.not_mem_nil, if_false]
    by_cases h : b = 0
    · simp [h, unitWorld]
    · simp [h, firstLive]
  obtain ⟨s', P', e, _⟩ := hi.exec ws
  exact ⟨s', e⟩

/-- A block problem for the examples. -/
private def blocks : Blocks :=
  ⟨⟨0, 1⟩, none, ⟨2, 3⟩, ⟨4, 5⟩, ⟨6, 7⟩, ⟨8, 9⟩, ⟨10, 11⟩, (12, 13, 14), (15, 16, 17), (12, 13, 14), (18, 19, 20)⟩

/-- The host and the devices in turn. -/
private def inTurn (n : Nat) : List Who := List.flatten (List.replicate n [.host, .device 0])

/-- `compute_schur_complement` does not wait for its loop: on a host execution space that runs kernels later,
`setup_solver` factorises the bottom-right block while the loop may write it. -/
theorem C66_schur_needs_synchronous_host :
    (⟨firstLive 10, [], blocks.setup false⟩ : State Unit).exec ⟨true⟩ unitWorld (inTurn 200) = .ub := by
  exact eq_ub (by decide +kernel)

/-! ## Cases that meet the hypotheses -/

/-- A kernel of an earlier call waits, a builder with Hermite closures and 2x2 blocks. -/
example : ∃ (s : State Unit) (m : Mem Unit) (B : Builder), Called 0 unitWorld s m ∧ s.pending ≠ [] ∧
    s.prog = B.call 0 1 2 3 9 ∧ (m 0).isSome ∧ (m 1).isSome ∧ (B.lower = .hermite → (m 2).isSome) ∧
    (B.upper = .hermite → (m 3).isSome) ∧ (∀ b ∈ B.solver.mats, (m b).isSome) ∧ m 9 = none ∧
    (∀ b ∈ B.solver.temps, m b = none ∧ b ≠ 9) ∧ B.solver.Distinct := by
  refine ⟨⟨firstLive 8, [(0, ⟨262, [1], [0], 0⟩)], _⟩, firstLive 8,
    ⟨.hermite, .hermite, false, .blocks3 (.blocks2 (.direct 148 [4]) (.direct 93 [5]) [6] [7]) true 10⟩, ⟨?_, ?_, ?_⟩, ?_,
    rfl, rfl, rfl, fun _ => rfl, fun _ => rfl, ?_, rfl, ?_, ⟨trivial, trivial⟩⟩
  · show (Res.ok _ : Res (Mem Unit)) = _
    congr 1
    funext b
    by_cases h : b = 0 <;> simp [h, firstLive, unitWorld]
  · simp
  · simp
  · simp
  · decide
  · decide

/-- The 2x2 blocks above meet the hypotheses of `C66_setup_solver`. -/
example : (∀ b ∈ blocks.owned, (firstLive 10 b).isSome) ∧
    (∀ b ∈ cooTemps blocks.counter blocks.old₁ blocks.new₁, firstLive 10 b = none) ∧
    (cooTemps blocks.counter blocks.old₁ blocks.new₁).Nodup ∧
    (∀ b ∈ cooTemps blocks.counter blocks.old₂ blocks.new₂, firstLive 10 b = none) ∧
    (cooTemps blocks.counter blocks.old₂ blocks.new₂).Nodup ∧
    ∀ b ∈ cooTemps blocks.counter blocks.old₂ blocks.new₂,
      b ≠ blocks.new₁.1 ∧ b ≠ blocks.new₁.2.1 ∧ b ≠ blocks.new₁.2.2 := by
  decide

/-- Two dimensions with Hermite closures. -/
example : Needs2 ⟨.hermite, .hermite, false, .direct 148 [11]⟩ ⟨.hermite, .hermite, false, .direct 148 [12]⟩
    (live (firstLive 13)) 1 2 3 4 5 6 7 8 9 ∧
    (∀ b ∈ [20, 21, 22, 23], firstLive 13 b = none) ∧
    Temps ⟨.hermite, .hermite, false, .direct 148 [11]⟩ (live (firstLive 13)) [20, 21, 22, 23] := by
  refine ⟨⟨rfl, fun _ => rfl, fun _ => rfl, fun _ => rfl, fun _ => rfl, fun _ _ => rfl, fun _ _ => rfl, fun _ _ => rfl,
    fun _ _ => rfl⟩, by decide, ⟨by simp [Solver.temps], by simp [Solver.temps], ?_, trivial⟩⟩
  intro b hb
  simp only [Solver.mats, List.mem_singleton] at hb
  rw [hb]
  rfl

/-- Three dimensions with Hermite closures, without repeated names. -/
example : Needs3 ⟨.hermite, .hermite, false, .direct 148 [40]⟩ ⟨.hermite, .hermite, false, .direct 148 [41]⟩
    ⟨.hermite, .hermite, false, .direct 148 [42]⟩ (live (firstLive 50)) 1
    ⟨fun a => cond a 2 3, fun a => cond a 4 5, fun a => cond a 6 7, fun a b => cond a 8 10 + cond b 0 1,
      fun a b => cond a 12 14 + cond b 0 1, fun a b => cond a 16 18 + cond b 0 1,
      fun a b c => cond a 20 24 + cond b 0 2 + cond c 0 1⟩ ∧
    (Temps3.all ⟨fun a => cond a 50 51, fun a => cond a 52 53, fun a b => cond a 54 56 + cond b 0 1, 58, 59, 60, 61,
      62⟩).Nodup := by
  refine ⟨⟨rfl, fun x _ => ?_, fun y _ => ⟨?_, fun x _ => ?_⟩, fun z _ => ⟨?_, fun x _ => ?_⟩,
    fun y z _ => ⟨?_, fun x _ => ?_⟩⟩, by decide⟩
  · cases x <;> rfl
  · cases y <;> rfl
  · cases x <;> cases y <;> rfl
  · cases z <;> rfl
  · cases x <;> cases z <;> rfl
  · cases y <;> cases z <;> rfl
  · cases x <;> cases y <;> cases z <;> rfl

/-- The result of the builder is not trivial: with contents that record the last kernel, the spline ends with the kernel
that copies the periodic coefficients. -/
example : (match sync (V := Nat) ⟨fun k _ _ => k.line, fun _ => 0⟩
      ((Builder.mk .periodic .periodic true (.direct 148 [2])).call 0 1 1 1 3) (fun b => if b < 3 then some b else none) with
    | .ok m => decide (m 0 = some 1075 ∧ m 1 = some 1 ∧ m 2 = some 2 ∧ m 3 = none)
    | _ => false) = true := by
  decide +kernel

end DDC.Props
