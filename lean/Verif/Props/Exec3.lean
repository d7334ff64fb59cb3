import Verif.Proof.Phases
import Verif.Props.Exec2

/-! # Properties of every execution: cycles, assertions, exceptions, cancellation -/

namespace Joque

/-- **C09**, soundness and consequences, for every schedule.  If the execution ends with "Cycle
detected" there is a cycle.  If there is a cycle, the execution never succeeds, the only exception
it ends with is "Cycle detected" (or that of a visitor callback, or of memory running out), no job is ever started, no
`is_invalidated` is ever asked. -/
theorem C09_exact (C : Cfg) (hwf : C.dag.WF) (ms : List Move) :
    ((exec C ms).phase = .threw .cycle → Cyclic C.dag) ∧
    (Cyclic C.dag →
      (exec C ms).phase ≠ .finished ∧ (∀ e, (exec C ms).phase = .threw e →
        e = .cycle ∨ ∃ f, .fault f ∈ ms ∧ e = f.exc) ∧
      (∀ n, ¬ JobBegan (exec C ms).trace n) ∧
      (∀ n i log, .jobInval n i log ∉ (exec C ms).trace)) := by
  constructor
  · intro h; exact reason_exec hwf ms .cycle (.inr h)
  · intro hc
    rcases prologue_spec hwf with ⟨_, c, _, hp, ht⟩ | ⟨h, _⟩ | ⟨h, _⟩
    · obtain ⟨_, h⟩ := stuck_exec hp (.inr ⟨_, rfl⟩) ms
      have htr : ∀ e ∈ (exec C ms).trace, e = .resumed ∨ (∃ n, e = .nodeEnque n) ∨
          e = .detectedCycle c := by
        intro e he
        have : e ∈ (prologue C St.init).trace := by
          rcases h with h | ⟨h, _⟩ | ⟨h, _⟩ | ⟨_, h, _⟩
          · rw [h] at he; cases he
          · rw [h] at he; cases he
          · rw [← h]; exact he
          · exact h.subset he
        rw [ht] at this
        simp at this
        rcases this with rfl | ⟨n, _, rfl⟩ | rfl
        · exact .inl rfl
        · exact .inr (.inl ⟨n, rfl⟩)
        · exact .inr (.inr rfl)
      refine ⟨?_, ?_, ?_, ?_⟩
      · intro hf
        rcases h with h | ⟨_, h | h⟩ | ⟨_, h | ⟨e, _, h⟩ | h | h | h⟩ | ⟨_, _, h⟩
        rotate_right
        · rw [hf] at h; simp [visPhases] at h
        all_goals rw [h] at hf; cases hf
      · intro e hf
        rcases h with h | ⟨_, h | h⟩ | ⟨_, h | ⟨e', he', h⟩ | h | h | h⟩ | ⟨hv, _, h⟩
        rotate_right
        · rw [hf] at h; simp [visPhases] at h
          obtain ⟨f, h1, h2⟩ := fault_only ms h (.inr hf)
          exact .inr ⟨f, h1, h2.symm⟩
        all_goals rw [h] at hf
        all_goals (try (cases hf; done))
        left
        injection hf with hf; rw [← hf]; injection he' with he'; exact he'.symm
      · rintro n ⟨b, hb⟩
        rcases htr _ hb with h | ⟨_, h⟩ | h <;> cases h
      · intro n i log hb
        rcases htr _ hb with h | ⟨_, h⟩ | h <;> cases h
    · exact absurd hc h
    · exact absurd hc h

/-- **C09**, completeness: on a cyclic dag the very first `tick()` ends the execution with "Cycle
detected". -/
theorem C09_detected (C : Cfg) (hwf : C.dag.WF) (hc : Cyclic C.dag) :
    (exec C [.ctl, .ctl]).phase = .threw .cycle := by
  rcases prologue_spec hwf with ⟨_, c, _, hp, ht⟩ | ⟨h, _⟩ | ⟨h, _⟩
  · obtain ⟨t1, t2, _⟩ := prologue_todo (C := C)
    show (ctlStep C (prologue C St.init) true).phase = _
    unfold ctlStep
    rw [hp]
    simp [joinable, t1, t2]
  · exact absurd hc h
  · exact absurd hc h

/-- **C10**.  `on_detected_cycle` is called exactly once if the dag is cyclic (and the execution
was resumed at all, and nothing failed before), never otherwise; its argument is a real
cycle. -/
theorem C10_reported_cycle (C : Cfg) (hwf : C.dag.WF) (ms : List Move) :
    let reported := (exec C ms).trace.filterMap (fun e => match e with
      | .detectedCycle c => some c
      | _ => none)
    (¬ Cyclic C.dag → reported = []) ∧
    (Cyclic C.dag → (exec C ms).trace ≠ [] → (∃ c, reported = [c] ∧ IsCycle C.dag c) ∨
      (reported = [] ∧ ∃ f, .fault f ∈ ms)) := by
  have hT := tinv_exec hwf ms
  have hmap : ∀ l : List Node, (l.map Event.nodeEnque).filterMap (fun e => match e with
      | .detectedCycle c => some c
      | _ => none) = [] := by intro l; simp
  simp only
  constructor
  · intro hnc
    rw [List.filterMap_eq_nil_iff]
    intro e he
    have hpro : e ∈ (prologue C St.init).trace ∨ proEv e = false := by
      rcases hT.pro with ⟨_, h⟩ | ⟨rest, h, hr⟩ | ⟨_, _, h⟩
      · rw [h] at he; cases he
      · rw [h] at he
        rcases List.mem_append.1 he with he | he
        · exact .inl he
        · exact .inr (hr e he)
      · exact .inl (h.subset he)
    clear he
    · rcases hpro with he | this
      · rcases prologue_spec hwf with ⟨hc, _⟩ | ⟨_, _, _, evs, ht, h4, _⟩ |
            ⟨_, pre, n, post, _, _, _, ht, _⟩
        · exact absurd hc hnc
        · rw [ht] at he; simp at he
          rcases he with rfl | ⟨a, _, rfl⟩ | ⟨a, _, rfl⟩ | he
          · rfl
          · rfl
          · rfl
          · obtain ⟨n, m, rfl, _⟩ := h4 e he; rfl
        · rw [ht] at he; simp at he
          rcases he with rfl | ⟨a, _, rfl⟩ | ⟨a, _, rfl⟩ <;> rfl
      · cases e <;> first | rfl | (simp [proEv] at this)
  · intro hc hne
    rcases prologue_spec hwf with ⟨_, c, hic, hp, ht⟩ | ⟨h, _⟩ | ⟨h, _⟩
    · obtain ⟨_, h⟩ := stuck_exec hp (.inr ⟨_, rfl⟩) ms
      have full : ∀ tr, tr = (prologue C St.init).trace → tr.filterMap (fun e => match e with
          | .detectedCycle c => some c
          | _ => none) = [c] := by
        rintro tr rfl
        rw [ht, List.filterMap_append, List.filterMap_cons]
        simp [hmap]
      rcases h with h | ⟨h, _⟩ | ⟨h, _⟩ | ⟨hv, ⟨more, h⟩, _⟩
      · exact absurd (by rw [h]; rfl) hne
      · exact absurd h hne
      · exact .inl ⟨c, full _ h, hic⟩
      · have hf := full _ h
        rcases List.eq_nil_or_concat more with rfl | ⟨m', x, rfl⟩
        · rw [List.append_nil] at hf; exact .inl ⟨c, hf, hic⟩
        · right
          refine ⟨?_, hv⟩
          have h' : ((exec C ms).trace ++ m') ++ [x] =
              (Event.resumed :: List.map Event.nodeEnque C.dag.nodes) ++ [.detectedCycle c] := by
            rw [← ht, ← h]; simp
          have h2 := (List.append_inj' h' rfl).1
          have h3 : ∀ e ∈ (exec C ms).trace, e = .resumed ∨ ∃ n, e = .nodeEnque n := by
            intro e he
            have : e ∈ Event.resumed :: List.map Event.nodeEnque C.dag.nodes := by
              rw [← h2]; exact List.mem_append_left _ he
            simp at this
            rcases this with rfl | ⟨n, _, rfl⟩
            · exact .inl rfl
            · exact .inr ⟨n, rfl⟩
          rw [List.filterMap_eq_nil_iff]
          intro e he
          rcases h3 e he with rfl | ⟨n, rfl⟩ <;> rfl
    · exact absurd hc h
    · exact absurd hc h

/-- A dag with a cycle 1 → 3 → 2 → 1 and an innocent task 4. -/
def Ex.cyc : Cfg := { Ex.cfg 2 with
  dag := { Ex.dag with
    nodes := [4, 3, 2, 1]
    edges := [⟨1, 3, .after⟩, ⟨4, 1, .after⟩, ⟨3, 2, .after⟩, ⟨2, 1, .after⟩] } }

example : Ex.cyc.dag.WF ∧ Cyclic Ex.cyc.dag ∧ (exec Ex.cyc [.ctl, .ctl]).phase = .threw .cycle ∧
    .detectedCycle [1, 3, 2] ∈ (exec Ex.cyc [.ctl, .ctl]).trace := by
  refine ⟨⟨by show [4, 3, 2, 1].Nodup; decide, ?_⟩, ⟨1, ?_⟩, by decide +kernel, by decide +kernel⟩
  · show ∀ e ∈ Ex.cyc.dag.edges, e.src ∈ [4, 3, 2, 1] ∧ e.tgt ∈ [4, 3, 2, 1]; decide
  · have e1 : AfterEdge Ex.cyc.dag 1 3 := by show _ ∈ Ex.cyc.dag.edges; decide
    have e2 : AfterEdge Ex.cyc.dag 3 2 := by show _ ∈ Ex.cyc.dag.edges; decide
    have e3 : AfterEdge Ex.cyc.dag 2 1 := by show _ ∈ Ex.cyc.dag.edges; decide
    exact ((Relation.TransGen.single e1).tail e2).tail e3

/-- **C12**.  No `assert` of the engine can fail; and the bounded recursions of the model never
run out of their bound (so the recursions of the code terminate). -/
theorem C12_no_assert (C : Cfg) (hwf : C.dag.WF) (ms : List Move) :
    (exec C ms).phase ≠ .abort ∧ (exec C ms).phase ≠ .outOfFuel :=
  ⟨(inv_exec hwf ms).noAbort, (inv_exec hwf ms).noFuel⟩

/-- the assertion "no candidate ⇒ something is running" is really evaluated: here task 2 is
blocked by the resource of the running task 1 -/
example : (exec { Ex.par 3 with dag := { (Ex.par 3).dag with nodes := [2, 1] } }
    (List.replicate 10 .ctl)).phase = .susp false := by decide +kernel

/-- **C18**, part 1.  When an execution ends with an exception (or has been destroyed), no job of
it is executing, and none will ever begin. -/
theorem C18_joined (C : Cfg) (hwf : C.dag.WF) (ms : List Move)
    (hp : (∃ e, (exec C ms).phase = .threw e) ∨ (exec C ms).phase = .destroyed)
    (ms' : List Move) :
    (∀ n, ¬ Running (exec C ms).trace n) ∧
    (exec C (ms ++ ms')).trace = (exec C ms).trace := by
  obtain ⟨hI, hT⟩ := both_exec hwf ms
  have hj := hT.joined hp
  constructor
  · intro n h
    have := (running_worker hI hT h).1
    rcases hj n with h | h <;> rw [h] at this <;> cases this
  · rw [exec_append]
    have hE : (exec C ms).phase.ending = true := by
      rcases hp with ⟨e, h⟩ | h <;> rw [h] <;> rfl
    -- no event is possible: every worker is idle or finished, and stays so
    have : (∀ n, (ms'.foldl (step C) (exec C ms)).worker n = .idle ∨
          (ms'.foldl (step C) (exec C ms)).worker n = .finished) ∧
        (ms'.foldl (step C) (exec C ms)).trace = (exec C ms).trace ∧
        (ms'.foldl (step C) (exec C ms)).phase.ending = true := by
      refine foldl_inv (P := fun s : St => (∀ n, s.worker n = .idle ∨ s.worker n = .finished) ∧
        s.trace = (exec C ms).trace ∧ s.phase.ending = true) ?_ ms' _ ⟨hj, rfl, hE⟩
      rintro s m ⟨hw, ht, he⟩
      have hctl : ∀ ok, (∀ n, (ctlStep C s ok).worker n = .idle ∨
          (ctlStep C s ok).worker n = .finished) ∧
          (ctlStep C s ok).trace = (exec C ms).trace ∧ (ctlStep C s ok).phase.ending = true := by
        intro ok
        unfold ctlStep
        split <;> rename_i hph <;> (try (rw [hph] at he; cases he)) <;> (try split) <;>
          first | exact ⟨hw, ht, rfl⟩ | exact ⟨hw, ht, by rw [hph]; rfl⟩
      cases m with
      | ctl => exact hctl true
      | ctlFail => exact hctl false
      | fault f =>
        have : step C s (.fault f) = ctlStep C s true := fault_quiet C f (by
          refine ⟨?_, ?_, ?_, ?_, ?_, ?_⟩ <;> intros <;> intro hc <;> rw [hc] at he <;> cases he)
        rw [this]; exact hctl true
      | begin n =>
        simp only [step]
        rcases hw n with h | h <;> rw [h] <;> simp <;> exact ⟨hw, ht, he⟩
      | finish n =>
        simp only [step]
        rcases hw n with h | h <;> rw [h] <;> simp <;> exact ⟨hw, ht, he⟩
      | destroy =>
        simp only [step, destroyStep]
        split <;> first | exact ⟨hw, ht, rfl⟩ | exact ⟨hw, ht, he⟩
    exact this.2.1

/-- **C18**, part 2.  From the moment an exception leaves the engine (resp. destruction starts),
nothing new is launched: the only things that still happen are that jobs already handed to
worker threads begin and end. -/
theorem C18_nothing_new (C : Cfg) (hwf : C.dag.WF) (ms ms' : List Move)
    (hp : (∃ e, (exec C ms).phase = .unwinding e) ∨ (exec C ms).phase = .destroying) :
    ∃ post, (exec C (ms ++ ms')).trace = (exec C ms).trace ++ post ∧
      ∀ e ∈ post, ∃ n, .launch n ∈ (exec C ms).trace ∧ (e = .jobBegin n false ∨ e = .jobEnd n) := by
  rw [exec_append]
  obtain ⟨_, _, _, post, h1, h2⟩ := endRel_foldl (C := C) (s := exec C ms) (by
    rcases hp with ⟨e, h⟩ | h <;> rw [h] <;> rfl) ms'
  refine ⟨post, h1, fun e he => ?_⟩
  obtain ⟨n, hn, h⟩ := h2 e he
  exact ⟨n, wl_exec ms n hn, h⟩

/-- letting the given workers run to their end -/
def finishAll (ns : List Node) : List Move := ns.flatMap (fun n => [.begin n, .finish n])

theorem finishAll_spec (C : Cfg) (ns : List Node) : ∀ s : St, s.phase.dead = false →
    let s' := (finishAll ns).foldl (step C) s
    s'.phase = s.phase ∧ s'.todo = s.todo ∧ s'.kept = s.kept ∧
    (∀ n ∈ ns, s'.worker n = .idle ∨ s'.worker n = .finished) ∧
    (∀ n, s.worker n = .idle ∨ s.worker n = .finished → s'.worker n = s.worker n) := by
  induction ns with
  | nil => intro s _; simp [finishAll]
  | cons n ns ih =>
    intro s hd
    have hstep : ∃ s1, [Move.begin n, .finish n].foldl (step C) s = s1 ∧ s1.phase = s.phase ∧
        s1.todo = s.todo ∧ s1.kept = s.kept ∧ (s1.worker n = .idle ∨ s1.worker n = .finished) ∧
        (∀ m, m ≠ n → s1.worker m = s.worker m) ∧
        (s.worker n = .idle ∨ s.worker n = .finished → s1.worker n = s.worker n) := by
      refine ⟨_, rfl, ?_⟩
      simp only [List.foldl, step, hd]
      cases hw : s.worker n <;> simp [hw, hd, setWorker, St.emit] <;>
        (intro m hm; simp [hm])
    obtain ⟨s1, h1, hp, ht, hk, hn, ho, hs⟩ := hstep
    have h2 := ih s1 (by rw [hp]; exact hd)
    have : (finishAll (n :: ns)).foldl (step C) s = (finishAll ns).foldl (step C) s1 := by
      rw [← h1]; simp [finishAll]
    simp only at h2 ⊢
    rw [this]
    obtain ⟨a, b, c, d, e⟩ := h2
    refine ⟨a.trans hp, b.trans ht, c.trans hk, ?_, ?_⟩
    · intro m hm
      rcases List.mem_cons.1 hm with rfl | hm
      · rw [e m hn]; exact hn
      · exact d m hm
    · intro m hm
      by_cases hmn : m = n
      · subst hmn; rw [e m hn]; exact hs hm
      · rw [e m (by rw [ho m hmn]; exact hm), ho m hmn]

/-- **C18**, part 3.  The exception is delivered: once the jobs that were executing have ended,
the execution is done and holds exactly that exception. -/
theorem C18_delivered (C : Cfg) (ms : List Move) (e : Exc)
    (hp : (exec C ms).phase = .unwinding e) :
    ∃ ns, (exec C (ms ++ finishAll ns ++ [.ctl])).phase = .threw e := by
  refine ⟨(handles (exec C ms)).map Handle.node, ?_⟩
  rw [exec_append, exec_append]
  obtain ⟨h1, h2, h3, h4, _⟩ := finishAll_spec C ((handles (exec C ms)).map Handle.node) (exec C ms)
    (by rw [hp]; rfl)
  simp only [List.foldl, step, ctlStep, h1, hp]
  rw [if_pos]
  rw [joinable, h2, h3, List.all_eq_true]
  intro h hh
  have := h4 h.node (List.mem_map_of_mem hh)
  simpa using this

/-- **C18**, part 4.  If some `is_invalidated` throws (and there is no cycle, and all jobs exist),
the first tick ends the execution with that exception (of the throwing task with the least
address) and no job is ever started, whatever the schedule. -/
theorem C18_inval_throws (C : Cfg) (hwf : C.dag.WF) (hac : ¬ Cyclic C.dag)
    (hjob : ∀ n ∈ C.dag.nodes, C.hasJob n = true)
    (hthrow : ∃ n ∈ C.dag.nodes, ∃ w, C.ask n = .throws w) :
    ∃ n ∈ C.dag.nodes, ∃ w, C.ask n = .throws w ∧
      (∀ m ∈ C.dag.nodes, ∀ w', C.ask m = .throws w' → n ≤ m) ∧
      (exec C [.ctl, .ctl]).phase = .threw (.inval w) ∧
      ∀ ms m, ¬ JobBegan (exec C ms).trace m := by
  have htp := toProcessOf_spec C.dag
  rcases prologue_spec hwf with ⟨h, _⟩ | ⟨_, h, _⟩ |
      ⟨_, pre, n, post, h2, h3, h4, ht, ⟨h5, hp⟩ | ⟨h5, w, h6, hp⟩⟩
  · exact absurd h hac
  · obtain ⟨n, hn, w, hw⟩ := hthrow
    obtain ⟨_, a, ha⟩ := h n hn
    rw [hw] at ha; cases ha
  · rw [hjob n ((htp.2 n).1 (by rw [h2]; simp))] at h5; cases h5
  · refine ⟨n, (htp.2 n).1 (by rw [h2]; simp), w, h6, ?_, ?_, ?_⟩
    · intro m hm w' hw'
      have hm' := (htp.2 m).2 hm
      have hs := htp.1
      rw [h2] at hm' hs
      rcases List.mem_append.1 hm' with hm' | hm'
      · obtain ⟨_, a, ha⟩ := h3 m hm'
        rw [hw'] at ha; cases ha
      · rcases List.mem_cons.1 hm' with rfl | hm'
        · exact Nat.le_refl _
        · have := (List.pairwise_append.1 hs).2.1
          rw [List.pairwise_cons] at this
          exact Nat.le_of_lt (this.1 m hm')
    · obtain ⟨t1, t2, _⟩ := prologue_todo (C := C)
      show (ctlStep C (prologue C St.init) true).phase = _
      unfold ctlStep
      rw [hp]
      simp [joinable, t1, t2]
    · rintro ms m ⟨b, hb⟩
      obtain ⟨_, h⟩ := stuck_exec hp (.inr ⟨_, rfl⟩) ms
      rcases h with h | ⟨h, _⟩ | ⟨h, _⟩ | ⟨_, h, _⟩
      · rw [h] at hb; cases hb
      · rw [h] at hb; cases hb
      · rw [h, ht] at hb; simp at hb
      · have hb := h.subset hb
        rw [ht] at hb; simp at hb

/-- **C18**, part 5.  There are no other exceptions: the execution ends with an exception only
because of a cycle, a throwing `is_invalidated`, a thread that could not be created
(`ctlFail`), a visitor callback that threw (`visThrow`), or memory that ran out. -/
theorem C18_only_reasons (C : Cfg) (hwf : C.dag.WF) (ms : List Move) (e : Exc)
    (hp : (exec C ms).phase = .threw e) :
    (e = .cycle ∧ Cyclic C.dag) ∨
    (∃ n ∈ C.dag.nodes, ∃ w, e = .inval w ∧ C.ask n = .throws w) ∨
    (e = .asyncFailed ∧ .ctlFail ∈ ms ∧ C.threadCount ≠ 0) ∨
    (e = .visitor ∧ (∃ k, .visThrow k ∈ ms) ∧
      ∃ ev ∈ (exec C ms).trace, ev.isCallback = true) ∨
    (e = .noMemory ∧ ∃ f, .fault f ∈ ms ∧ f.exc = .noMemory) := by
  have hr := reason_exec hwf ms e (.inr hp)
  cases e with
  | cycle => exact .inl ⟨rfl, hr⟩
  | inval w =>
    obtain ⟨_, pre, n, post, h1, _, _, h2⟩ := hr
    exact .inr (.inl ⟨n, ((toProcessOf_spec C.dag).2 n).1 (by rw [h1]; simp), w, rfl, h2⟩)
  | visitor => exact .inr (.inr (.inr (.inl ⟨rfl, vis_only ms (.inr hp), hr⟩)))
  | noMemory => exact .inr (.inr (.inr (.inr ⟨rfl, fault_only ms (.inr rfl) (.inr hp)⟩)))
  | asyncFailed =>
    refine .inr (.inr (.inl ⟨rfl, ?_, hr.1⟩))
    by_contra hc
    have : (exec C ms).phase ≠ .unwinding .asyncFailed ∧
        (exec C ms).phase ≠ .threw .asyncFailed := by
      clear hp hr
      induction ms using List.reverseRecOn with
      | nil => simp [exec, St.init]
      | append_singleton ms m ih =>
        simp only [List.mem_append, List.mem_singleton, not_or] at hc
        obtain ⟨i1, i2⟩ := ih hc.1
        rw [exec_append]
        simp only [List.foldl]
        have hctl : (ctlStep C (exec C ms) true).phase ≠ .unwinding .asyncFailed ∧
            (ctlStep C (exec C ms) true).phase ≠ .threw .asyncFailed := by
          constructor
          · intro h
            rcases ctl_unwinding h with ⟨h, _⟩ | ⟨_, h⟩ | ⟨h, _⟩
            · exact i1 h
            · unfold prologue at h
              simp only at h
              split at h <;> (try cases h)
              split at h <;> cases h
            · cases h
          · intro h; exact i1 (ctl_threw h)
        by_cases hm : m = .ctl
        · subst hm; exact hctl
        by_cases hv : ∃ f, m = .fault f
        · obtain ⟨f, rfl⟩ := hv
          rcases fault_phase (C := C) (exec C ms) f with h | h
          · show (faultStep C (exec C ms) f).phase ≠ _ ∧ (faultStep C (exec C ms) f).phase ≠ _
            rw [h]; exact hctl
          · show (faultStep C (exec C ms) f).phase ≠ _ ∧ (faultStep C (exec C ms) f).phase ≠ _
            rw [h]; cases f <;> simp [Fault.exc]
        · rcases phase_other (C := C) (s := exec C ms) hm (Ne.symm hc.2)
            (fun k hk => hv ⟨k, hk⟩) with h | h <;> rw [h]
          · exact ⟨i1, i2⟩
          · simp
    exact this.2 hp

/-- a thread cannot be created while another job runs: the exception waits for that job -/
example : (exec (Ex.par 3) (List.replicate 10 .ctl ++ [.begin 1] ++ List.replicate 3 .ctl ++
      [.ctlFail])).phase = .unwinding .asyncFailed ∧
    Running (exec (Ex.par 3) (List.replicate 10 .ctl ++ [.begin 1] ++ List.replicate 3 .ctl ++
      [.ctlFail])).trace 1 :=
  ⟨by decide +kernel, ⟨false, by decide +kernel⟩, by simp only [JobEnded]; decide +kernel⟩

/-- a throwing `is_invalidated` -/
example : ∃ C : Cfg, C.dag.WF ∧ (∀ n ∈ C.dag.nodes, C.hasJob n = true) ∧
    (exec C [.ctl, .ctl]).phase = .threw (.inval ['x']) :=
  ⟨{ Ex.cfg 2 with ask := fun n => if n = 4 then .throws ['x'] else (Ex.cfg 2).ask n },
    Ex.wf 2, fun _ _ => rfl, by decide +kernel⟩

/-- **C19**.  Destroying the execution at any suspension point: nothing new is launched, the
destructor does not return while a job of the execution is executing, and once it has returned
nothing of the execution ever happens again. -/
theorem C19_destroy (C : Cfg) (hwf : C.dag.WF) (ms ms' : List Move)
    (hs : (exec C ms).phase = .created ∨ (∃ d, (exec C ms).phase = .susp d) ∨
      (exec C ms).phase = .finished ∨ ∃ e, (exec C ms).phase = .threw e) :
    let s' := exec C (ms ++ [.destroy] ++ ms')
    (s'.phase = .destroying ∨ s'.phase = .destroyed) ∧
    (∃ post, s'.trace = (exec C ms).trace ++ post ∧
      ∀ e ∈ post, ∃ n, .launch n ∈ (exec C ms).trace ∧ (e = .jobBegin n false ∨ e = .jobEnd n)) ∧
    (s'.phase = .destroyed → (∀ n, ¬ Running s'.trace n) ∧
      ∀ ms'', (exec C (ms ++ [.destroy] ++ ms' ++ ms'')).trace = s'.trace) := by
  have hd : step C (exec C ms) .destroy = { exec C ms with phase := .destroying } := by
    simp only [step, destroyStep]
    rcases hs with h | ⟨d, h⟩ | h | ⟨e, h⟩ <;> rw [h]
  have h0 : (exec C (ms ++ [.destroy])).phase = .destroying := by
    rw [exec_append]; simp only [List.foldl, hd]
  have ht0 : (exec C (ms ++ [.destroy])).trace = (exec C ms).trace := by
    rw [exec_append]; simp only [List.foldl, hd]
  simp only
  refine ⟨?_, ?_, ?_⟩
  · rw [exec_append]
    refine foldl_inv (P := fun s : St => s.phase = .destroying ∨ s.phase = .destroyed) ?_ ms' _ (.inl h0)
    intro s m h
    by_cases hm : m = .ctl ∨ m = .ctlFail ∨ ∃ f, m = .fault f
    · have hctl : ∀ ok, (ctlStep C s ok).phase = .destroying ∨
          (ctlStep C s ok).phase = .destroyed := by
        intro ok
        unfold ctlStep
        rcases h with h | h <;> rw [h] <;> simp only
        · split
          · exact .inr rfl
          · exact .inl h
        · exact .inr h
      rcases hm with rfl | rfl | ⟨f, rfl⟩
      · exact hctl true
      · exact hctl false
      · have : step C s (.fault f) = ctlStep C s true := fault_quiet C f (by
          rcases h with h | h <;> simp [h])
        rw [this]; exact hctl true
    · rcases phase_other (C := C) (s := s) (fun h => hm (.inl h)) (fun h => hm (.inr (.inl h)))
        (fun k h => hm (.inr (.inr ⟨k, h⟩))) with h1 | h1
      · rw [h1]; exact h
      · exact .inl h1
  · obtain ⟨post, h1, h2⟩ := C18_nothing_new C hwf (ms ++ [.destroy]) ms' (.inr h0)
    exact ⟨post, by rw [h1, ht0], by rw [← ht0]; exact h2⟩
  · intro hp
    exact ⟨(C18_joined C hwf _ (.inr hp) []).1, fun ms'' => (C18_joined C hwf _ (.inr hp) ms'').2⟩

/-- **C19**.  The destructor does return once the executing jobs have ended. -/
theorem C19_returns (C : Cfg) (ms : List Move)
    (hp : (exec C ms).phase = .destroying) :
    ∃ ns, (exec C (ms ++ finishAll ns ++ [.ctl])).phase = .destroyed := by
  refine ⟨(handles (exec C ms)).map Handle.node, ?_⟩
  rw [exec_append, exec_append]
  obtain ⟨h1, h2, h3, h4, _⟩ := finishAll_spec C ((handles (exec C ms)).map Handle.node) (exec C ms)
    (by rw [hp]; rfl)
  simp only [List.foldl, step, ctlStep, h1, hp]
  rw [if_pos]
  rw [joinable, h2, h3, List.all_eq_true]
  intro h hh
  have := h4 h.node (List.mem_map_of_mem hh)
  simpa using this

/-- cancelled while two jobs are executing -/
example : (exec (Ex.par 3) (List.replicate 23 .ctl)).phase = .susp false ∧
    (exec (Ex.par 3) (List.replicate 23 .ctl ++ [.begin 1, .begin 3, .destroy, .ctl])).phase
      = .destroying :=
  ⟨by decide +kernel, by decide +kernel⟩

/-- **C51** is false: executing a task without a job is undefined behaviour (null dereference in
`propagate_invalidation`), already in the first tick. -/
theorem C51_counterexample : ∃ C : Cfg, C.dag.WF ∧ ¬ Cyclic C.dag ∧
    (∃ n ∈ C.dag.nodes, C.hasJob n = false) ∧ (exec C [.ctl]).phase = .ub := by
  refine ⟨{ Ex.par 1 with hasJob := fun n => n ≠ 2 }, Ex.par_wf 1, ?_, ⟨2, ?_, rfl⟩,
    by decide +kernel⟩
  · rintro ⟨n, hn⟩
    obtain ⟨c, hc, _⟩ := Relation.TransGen.head'_iff.1 hn
    cases hc
  · show 2 ∈ [3, 2, 1]; decide

/-- **C51**, exact extent: with no cycle and no throwing `is_invalidated`, a missing job always is
undefined behaviour, in the first tick. -/
theorem C51_always_ub (C : Cfg) (hwf : C.dag.WF) (hac : ¬ Cyclic C.dag)
    (hask : ∀ n ∈ C.dag.nodes, ∃ a, C.ask n = .answer a)
    (hnull : ∃ n ∈ C.dag.nodes, C.hasJob n = false) : (exec C [.ctl]).phase = .ub := by
  show (prologue C St.init).phase = .ub
  rcases prologue_spec hwf with ⟨h, _⟩ | ⟨_, h, _⟩ |
      ⟨_, pre, n, post, h2, h3, h4, ht, ⟨h5, hp⟩ | ⟨h5, w, h6, hp⟩⟩
  · exact absurd h hac
  · obtain ⟨n, hn, h0⟩ := hnull
    rw [(h n hn).1] at h0; cases h0
  · exact hp
  · obtain ⟨a, ha⟩ := hask n (((toProcessOf_spec C.dag).2 n).1 (by rw [h2]; simp))
    rw [h6] at ha; cases ha

/-- **C51**, what does hold: if all jobs are set and every job returns a determined code, the
engine has no undefined behaviour, except by calling `tick()` after the end (C21). -/
theorem C51_partial (C : Cfg) (hwf : C.dag.WF) (hjob : ∀ n ∈ C.dag.nodes, C.hasJob n = true)
    (hret : ∀ n ∈ C.dag.nodes, ∀ rr, C.outcome n = .ret rr → rr.retcode ≠ none)
    (ms : List Move) (m : Move) (h0 : (exec C ms).phase ≠ .ub)
    (h1 : (exec C (ms ++ [m])).phase = .ub) :
    (exec C ms).phase = .finished ∨ ∃ e, (exec C ms).phase = .threw e := by
  have hI := inv_exec hwf ms
  rw [exec_append] at h1
  simp only [List.foldl] at h1
  have hctl : ∀ ok, (ctlStep C (exec C ms) ok).phase = .ub → (exec C ms).phase = .finished ∨
      ∃ e, (exec C ms).phase = .threw e := by
    intro ok h
    rcases ctl_ub h with h | ⟨hc, h⟩ | h | h | ⟨d, _, sl, hsl, h⟩
    · exact absurd h h0
    · rw [hI.createdInit hc] at h
      rcases prologue_spec hwf with ⟨_, c, _, hp, _⟩ | ⟨_, _, hp, _⟩ |
        ⟨_, pre, n, post, h2, h3, h4, ht, ⟨h5, hp⟩ | ⟨h5, w, h6, hp⟩⟩
      · rw [h] at hp; cases hp
      · rw [h] at hp; cases hp
      · rw [hjob n (((toProcessOf_spec C.dag).2 n).1 (by rw [h2]; simp))] at h5; cases h5
      · rw [h] at hp; cases hp
    · exact .inl h
    · exact .inr h
    · exfalso
      have hn : sl.h.node ∈ C.dag.nodes := by
        apply hI.handle_node
        unfold handles
        exact List.mem_append_right _ (List.mem_map_of_mem hsl)
      cases ho : C.outcome sl.h.node with
      | ret rr => rw [ho] at h; exact hret _ hn rr ho h
      | throwsStd w => rw [ho] at h; simp [asyncLambda] at h
      | throwsOther => rw [ho] at h; simp [asyncLambda] at h
  by_cases hm : m = .ctl ∨ m = .ctlFail ∨ ∃ f, m = .fault f
  · rcases hm with rfl | rfl | ⟨f, rfl⟩
    · exact hctl true h1
    · exact hctl false h1
    · have h1' : (faultStep C (exec C ms) f).phase = .ub := h1
      rcases fault_phase (C := C) (exec C ms) f with h | h
      · rw [h] at h1'; exact hctl true h1'
      · rw [h] at h1'; cases h1'
  · rcases phase_other (C := C) (s := exec C ms) (fun h => hm (.inl h)) (fun h => hm (.inr (.inl h)))
      (fun k h => hm (.inr (.inr ⟨k, h⟩))) with h | h
    · rw [h] at h1; exact absurd h1 h0
    · rw [h] at h1; cases h1

example : (∀ n ∈ (Ex.cfg 2).dag.nodes, (Ex.cfg 2).hasJob n = true) ∧
    (∀ n ∈ (Ex.cfg 2).dag.nodes, ∀ rr, (Ex.cfg 2).outcome n = .ret rr → rr.retcode ≠ none) := by
  refine ⟨fun _ _ => rfl, ?_⟩
  intro n _ rr h
  simp only [Ex.cfg] at h
  split at h <;> (injection h with h; subst h; simp)

end Joque
