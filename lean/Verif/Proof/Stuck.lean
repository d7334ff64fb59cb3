import Verif.Proof.History

/-! Executions whose prologue fails; phases that only wait -/

namespace Joque

variable {C : Cfg}

/-- nothing is or was scheduled -/
structure Quiet (s : St) : Prop where
  todo : s.todo = []
  kept : s.kept = []
  worker : s.worker = fun _ => .idle

theorem Quiet.joinable {s : St} (h : Quiet s) : Joque.joinable s = true := by
  simp [Joque.joinable, h.todo, h.kept]

/-- States of an execution that never got past its prologue; `vis`: a callback may throw, or memory run out. -/
def StuckSt (C : Cfg) (p0 : Phase) (vis : Prop) (s : St) : Prop :=
  Quiet s ∧ (s = St.init ∨
    (s.trace = [] ∧ (s.phase = .destroying ∨ s.phase = .destroyed)) ∨
    (s.trace = (prologue C St.init).trace ∧
      (s.phase = p0 ∨ (∃ e, p0 = .unwinding e ∧ s.phase = .threw e) ∨ s.phase = .destroying ∨
        s.phase = .destroyed ∨ s.phase = .ub)) ∨
    (vis ∧ s.trace <+: (prologue C St.init).trace ∧ s.phase ∈ visPhases))

theorem stuck_step {p0 : Phase} {vis : Prop} (hp : (prologue C St.init).phase = p0)
    (hp0 : p0 = .ub ∨ ∃ e, p0 = .unwinding e) (s : St) (m : Move)
    (hm : ∀ f, m = .fault f → vis) (h : StuckSt C p0 vis s) : StuckSt C p0 vis (step C s m) := by
  obtain ⟨t1, t2, _, t4, _⟩ := prologue_todo (C := C)
  obtain ⟨hq, h⟩ := h
  have hw : ∀ n, s.worker n = .idle := by intro n; rw [hq.worker]
  have hctl : ∀ ok, StuckSt C p0 vis (ctlStep C s ok) := by
    intro ok
    rcases h with rfl | ⟨ht, h | h⟩ | ⟨ht, h⟩ | ⟨hv, ht, h⟩
    · refine ⟨⟨t1, t2, t4⟩, .inr (.inr (.inl ⟨rfl, .inl hp⟩))⟩
    · unfold ctlStep; rw [h]; simp only [hq.joinable, if_true]
      exact ⟨⟨hq.todo, hq.kept, hq.worker⟩, .inr (.inl ⟨ht, .inr rfl⟩)⟩
    · unfold ctlStep; rw [h]
      exact ⟨hq, .inr (.inl ⟨ht, .inr h⟩)⟩
    · rcases h with h | ⟨e, he, h⟩ | h | h | h
      · rcases hp0 with rfl | ⟨e, rfl⟩
        · unfold ctlStep; rw [h]; exact ⟨hq, .inr (.inr (.inl ⟨ht, .inl h⟩))⟩
        · unfold ctlStep; rw [h]; simp only [hq.joinable, if_true]
          exact ⟨⟨hq.todo, hq.kept, hq.worker⟩, .inr (.inr (.inl ⟨ht, .inr (.inl ⟨e, rfl, rfl⟩)⟩))⟩
      · unfold ctlStep; rw [h]
        exact ⟨⟨hq.todo, hq.kept, hq.worker⟩, .inr (.inr (.inl ⟨ht, .inr (.inr (.inr (.inr rfl)))⟩))⟩
      · unfold ctlStep; rw [h]; simp only [hq.joinable, if_true]
        exact ⟨⟨hq.todo, hq.kept, hq.worker⟩, .inr (.inr (.inl ⟨ht, .inr (.inr (.inr (.inl rfl)))⟩))⟩
      · unfold ctlStep; rw [h]
        exact ⟨hq, .inr (.inr (.inl ⟨ht, .inr (.inr (.inr (.inl h)))⟩))⟩
      · unfold ctlStep; rw [h]
        exact ⟨hq, .inr (.inr (.inl ⟨ht, .inr (.inr (.inr (.inr h)))⟩))⟩
    · have hd : ∀ p, p ∈ visPhases → StuckSt C p0 vis { s with phase := p } := fun p hp =>
        ⟨⟨hq.todo, hq.kept, hq.worker⟩, .inr (.inr (.inr ⟨hv, ht, hp⟩))⟩
      have hs : StuckSt C p0 vis s := ⟨hq, .inr (.inr (.inr ⟨hv, ht, h⟩))⟩
      simp only [visPhases, List.mem_cons, List.not_mem_nil, or_false] at h
      unfold ctlStep
      rcases h with h | h | h | h | h | h | h <;> rw [h]
      · simp only [hq.joinable, if_true]; exact hd _ (by simp [visPhases])
      · exact hd _ (by simp [visPhases])
      · simp only [hq.joinable, if_true]; exact hd _ (by simp [visPhases])
      · exact hd _ (by simp [visPhases])
      · simp only [hq.joinable, if_true]; exact hd _ (by simp [visPhases])
      · exact hs
      · exact hs
  cases m with
  | ctl => exact hctl true
  | ctlFail => exact hctl false
  | fault f =>
    have quiet : s.phase ≠ .created ∧ s.phase ≠ .loopTop ∧ (∀ d, s.phase ≠ .susp d) ∧
        s.phase ≠ .drainTop ∧ (∀ d, s.phase ≠ .clean d) ∧ s.phase ≠ .pick →
          StuckSt C p0 vis (faultStep C s f) := by
      intro hph; rw [fault_quiet C f hph]; exact hctl true
    show StuckSt C p0 vis (faultStep C s f)
    rcases h with rfl | ⟨ht, h | h⟩ | ⟨ht, h⟩ | ⟨hv, ht, h⟩
    · rcases fault_cases C St.init f with h | ⟨pre, er, r, ref, post, _, _, h3⟩ |
          ⟨pre, e, post, _, h2, _, _, h3⟩ | ⟨_, hph, _⟩
      · rw [h]; exact hctl true
      · rw [h3]
        exact ⟨⟨t1, t2, t4⟩, .inr (.inr (.inr ⟨hm f rfl, List.prefix_refl _, unwinding_vis f⟩))⟩
      · rw [h3]
        refine ⟨⟨rfl, rfl, rfl⟩, .inr (.inr (.inr ⟨hm f rfl, ?_, unwinding_vis f⟩))⟩
        have h2' : (prologue C St.init).trace = pre ++ e :: post := h2
        rw [h2']
        exact ⟨post, by simp [St.init]⟩
      · simp [St.init] at hph
    · exact quiet (by simp [h])
    · exact quiet (by simp [h])
    · apply quiet
      rcases h with h | ⟨e, he, h⟩ | h | h | h
      · rcases hp0 with rfl | ⟨e, rfl⟩ <;> simp [h]
      all_goals simp [h]
    · apply quiet
      simp only [visPhases, List.mem_cons, List.not_mem_nil, or_false] at h
      rcases h with h | h | h | h | h | h | h <;> simp [h]
  | begin n => simp only [step, hw n]; split <;> exact ⟨hq, h⟩
  | finish n => simp only [step, hw n]; split <;> exact ⟨hq, h⟩
  | destroy =>
    have hd : destroyStep s = s ∨ destroyStep s = { s with phase := .destroying } := by
      unfold destroyStep; split <;> simp
    simp only [step]
    rcases hd with hd | hd
    · rw [hd]; exact ⟨hq, h⟩
    · rw [hd]
      refine ⟨⟨hq.todo, hq.kept, hq.worker⟩, ?_⟩
      rcases h with rfl | ⟨ht, _⟩ | ⟨ht, _⟩ | ⟨hv, ht, _⟩
      · exact .inr (.inl ⟨rfl, .inl rfl⟩)
      · exact .inr (.inl ⟨ht, .inl rfl⟩)
      · exact .inr (.inr (.inl ⟨ht, .inr (.inr (.inl rfl))⟩))
      · exact .inr (.inr (.inr ⟨hv, ht, by simp [visPhases]⟩))

theorem stuck_exec {p0 : Phase} (hp : (prologue C St.init).phase = p0)
    (hp0 : p0 = .ub ∨ ∃ e, p0 = .unwinding e) (ms : List Move) :
    StuckSt C p0 (∃ f, .fault f ∈ ms) (exec C ms) := by
  have : ∀ (l : List Move) (s : St), (∀ m ∈ l, m ∈ ms) →
      StuckSt C p0 (∃ f, .fault f ∈ ms) s →
      StuckSt C p0 (∃ f, .fault f ∈ ms) (l.foldl (step C) s) := by
    intro l
    induction l with
    | nil => intro s _ h; exact h
    | cons m l ih =>
      intro s hl h
      refine ih _ (fun x hx => hl x (List.mem_cons_of_mem _ hx)) (stuck_step hp hp0 s m ?_ h)
      rintro k rfl
      exact ⟨k, hl _ List.mem_cons_self⟩
  exact this ms _ (fun _ h => h) ⟨⟨rfl, rfl, rfl⟩, .inl rfl⟩

theorem exec_append (C : Cfg) (a b : List Move) : exec C (a ++ b) = b.foldl (step C) (exec C a) := by
  simp [exec]

/-- phases from which only the jobs already handed to threads go on -/
def Phase.ending : Phase → Bool
  | .unwinding _ | .threw _ | .destroying | .destroyed | .finished | .ub => true
  | _ => false

/-- From an ending phase: the execution stays there, and only jobs of existing threads begin and
end. -/
def EndRel (s s' : St) : Prop :=
  s'.phase.ending = true ∧
  (∀ n, s'.worker n = .queued → s.worker n = .queued) ∧
  (∀ n, s'.worker n ≠ .idle → s.worker n ≠ .idle) ∧
  ∃ post, s'.trace = s.trace ++ post ∧
    ∀ e ∈ post, ∃ n, s.worker n ≠ .idle ∧ (e = .jobBegin n false ∨ e = .jobEnd n)

theorem EndRel.refl {s : St} (h : s.phase.ending = true) : EndRel s s :=
  ⟨h, fun _ h => h, fun _ h => h, [], by simp, by simp⟩

theorem EndRel.step {s s' : St} (h : EndRel s s') (m : Move) : EndRel s (step C s' m) := by
  obtain ⟨h1, h2, h3, post, h4, h5⟩ := h
  have same : ∀ p : Phase, p.ending = true → EndRel s { s' with phase := p } :=
    fun p hp => ⟨hp, h2, h3, post, h4, h5⟩
  have hctl : ∀ ok, EndRel s (ctlStep C s' ok) := by
    intro ok
    unfold ctlStep
    split <;> rename_i hph <;> (try (rw [hph] at h1; cases h1)) <;> (try split) <;>
      (first | exact same _ rfl | exact ⟨h1, h2, h3, post, h4, h5⟩ |
        exact ⟨by rw [hph]; rfl, h2, h3, post, h4, h5⟩)
  cases m with
  | ctl => exact hctl true
  | ctlFail => exact hctl false
  | fault f =>
    show EndRel s (faultStep C s' f)
    rw [fault_quiet C f]
    · exact hctl true
    · refine ⟨?_, ?_, ?_, ?_, ?_, ?_⟩ <;> intros <;> intro hc <;> rw [hc] at h1 <;> cases h1
  | begin n =>
    simp only [Joque.step]
    split
    · exact ⟨h1, h2, h3, post, h4, h5⟩
    · split
      · rename_i hq
        have hsn : s.worker n ≠ .idle := h3 n (by rw [hq]; simp)
        refine ⟨h1, ?_, ?_, post ++ [.jobBegin n false], by simp [St.emit, h4], ?_⟩
        · intro m hm
          simp only [setWorker] at hm
          split at hm
          · cases hm
          · exact h2 m hm
        · intro m hm
          simp only [setWorker] at hm
          split at hm
          · rename_i e; subst e; exact hsn
          · exact h3 m hm
        · intro e he
          rcases List.mem_append.1 he with he | he
          · exact h5 e he
          · rw [List.mem_singleton] at he; exact ⟨n, hsn, .inl he⟩
      · exact ⟨h1, h2, h3, post, h4, h5⟩
  | finish n =>
    simp only [Joque.step]
    split
    · exact ⟨h1, h2, h3, post, h4, h5⟩
    · split
      · rename_i hq
        have hsn : s.worker n ≠ .idle := h3 n (by rw [hq]; simp)
        refine ⟨h1, ?_, ?_, post ++ [.jobEnd n], by simp [St.emit, h4], ?_⟩
        · intro m hm
          simp only [setWorker] at hm
          split at hm
          · cases hm
          · exact h2 m hm
        · intro m hm
          simp only [setWorker] at hm
          split at hm
          · rename_i e; subst e; exact hsn
          · exact h3 m hm
        · intro e he
          rcases List.mem_append.1 he with he | he
          · exact h5 e he
          · rw [List.mem_singleton] at he; exact ⟨n, hsn, .inr he⟩
      · exact ⟨h1, h2, h3, post, h4, h5⟩
  | destroy =>
    simp only [Joque.step, destroyStep]
    split
    all_goals first | exact same _ rfl | exact ⟨h1, h2, h3, post, h4, h5⟩

theorem endRel_foldl {s : St} (h : s.phase.ending = true) (ms : List Move) :
    EndRel s (ms.foldl (step C) s) :=
  foldl_inv (P := EndRel s) (fun _ m h => h.step m) ms _ (.refl h)

/-- a thread exists only for a job that was launched -/
def WL (s : St) : Prop := ∀ n, s.worker n ≠ .idle → Event.launch n ∈ s.trace

theorem WL.ext {s s' : St} (h : WL s) (hw : s'.worker = s.worker)
    (ht : ∃ post, s'.trace = s.trace ++ post) : WL s' := by
  intro n hn
  obtain ⟨post, ht⟩ := ht
  rw [ht]; rw [hw] at hn
  exact List.mem_append_left _ (h n hn)

theorem wl_complete {s : St} (h : WL s) (ref : Node) (rest : List Slot) (r : RunRecord) :
    WL (complete s ref rest r) := h.ext rfl ⟨_, rfl⟩

theorem wl_collect {s : St} (h : WL s) (ref : Node) (x : Handle) (rest : List Slot) :
    WL (collect C s ref x rest) := by
  unfold collect
  simp only
  split
  · exact h.ext rfl ⟨[], by simp⟩
  · apply wl_complete
    split <;> exact h.ext rfl ⟨_, rfl⟩

theorem wl_ctl {s : St} (h : WL s) (ok : Bool) : WL (ctlStep C s ok) := by
  unfold ctlStep
  split
  · intro n hn
    have : (prologue C s).worker = s.worker := by
      unfold prologue; simp only; split <;> (try rfl)
      split <;> rfl
    have h2 : ∃ post, (prologue C s).trace = s.trace ++ post := by
      unfold prologue; simp only; split <;> (try exact ⟨_, by simp; rfl⟩)
      split <;> exact ⟨_, by simp; rfl⟩
    exact h.ext this h2 n hn
  · split
    · exact h.ext rfl ⟨[], by simp⟩
    · exact h.ext rfl ⟨_, rfl⟩
  · unfold cleanStep
    split
    · exact h.ext rfl ⟨[], by simp⟩
    · split
      · unfold startRun
        simp only
        split
        · exact h.ext rfl ⟨[], by simp⟩
        · split
          · exact wl_complete (WL.ext (s := s) h (by rfl) ⟨[_], by rfl⟩) _ _ _
          · split
            · exact wl_complete (WL.ext (s := s) h (by rfl) ⟨[_], by rfl⟩) _ _ _
            · split
              · apply wl_collect
                exact WL.ext (s := s) h (by rfl) ⟨[_, _, _], by simp [St.emit]; exact ⟨rfl, rfl, rfl⟩⟩
              · split
                · intro n hn
                  simp only [setWorker] at hn
                  simp only [St.emit, List.mem_append, List.mem_singleton]
                  split at hn
                  · rename_i e; subst e; exact .inr rfl
                  · exact .inl (.inl (h n hn))
                · exact h.ext rfl ⟨_, rfl⟩
      · split
        · exact wl_collect h _ _ _
        · exact h.ext rfl ⟨[], by simp⟩
  · unfold pickStep
    split
    · exact h.ext rfl ⟨[], by simp⟩
    · split
      · exact h.ext rfl ⟨[], by simp⟩
      · exact h.ext rfl ⟨[], by simp⟩
      · split <;> exact h.ext rfl ⟨[], by simp⟩
  · exact h.ext rfl ⟨_, rfl⟩
  · split
    · exact h.ext rfl ⟨_, rfl⟩
    · exact h.ext rfl ⟨[], by simp⟩
  all_goals first | exact h | (split <;> first | exact h | exact h.ext rfl ⟨[], by simp⟩) |
    exact h.ext rfl ⟨[], by simp⟩

theorem wl_exec (ms : List Move) : WL (exec C ms) := by
  refine foldl_inv (P := WL) ?_ ms _ (by intro n hn; exact absurd rfl hn)
  intro s m h
  cases m with
  | ctl => exact wl_ctl h true
  | ctlFail => exact wl_ctl h false
  | fault f =>
    show WL (faultStep C s f)
    rcases fault_cases C s f with h1 | ⟨pre, er, r, ref, post, _, _, h3⟩ | ⟨pre, e, post, _, _, _, _, h3⟩ |
      ⟨_, _, h3⟩
    · rw [h1]; exact wl_ctl h true
    · rw [h3]; exact (wl_ctl h true).ext rfl ⟨[], by simp⟩
    · rw [h3]; exact h.ext rfl ⟨_, rfl⟩
    · rw [h3]; exact h.ext rfl ⟨[], by simp⟩
  | begin n =>
    simp only [step]
    split
    · exact h
    · split
      · rename_i hq
        intro m hm
        simp only [setWorker] at hm
        simp only [St.emit, List.mem_append]
        split at hm
        · rename_i e; subst e; exact .inl (h m (by rw [hq]; simp))
        · exact .inl (h m hm)
      · exact h
  | finish n =>
    simp only [step]
    split
    · exact h
    · split
      · rename_i hq
        intro m hm
        simp only [setWorker] at hm
        simp only [St.emit, List.mem_append]
        split at hm
        · rename_i e; subst e; exact .inl (h m (by rw [hq]; simp))
        · exact .inl (h m hm)
      · exact h
  | destroy =>
    simp only [step, destroyStep]
    split <;> first | exact h | exact h.ext rfl ⟨[], by simp⟩

end Joque
