import Mathlib.Data.List.Induction
import Verif.Proof.Stuck

/-! Which phase follows which -/

namespace Joque

variable {C : Cfg}

theorem phase_complete {s : St} {ref : Node} {rest : List Slot} {r : RunRecord} :
    (complete s ref rest r).phase = s.phase := rfl

theorem phase_collect {s : St} {ref : Node} {h : Handle} {rest : List Slot} :
    (collect C s ref h rest).phase = s.phase ∨
    ((collect C s ref h rest).phase = .ub ∧ (asyncLambda (C.outcome h.node)).retcode = none) := by
  unfold collect
  simp only
  split
  · rename_i h; exact .inr ⟨rfl, h⟩
  · left
    rw [phase_complete]
    split <;> rfl

theorem phase_startRun {s : St} {ok : Bool} {ref : Node} {h : Handle} {rest : List Slot} :
    (startRun C s ok ref h rest).phase = s.phase ∨
    (startRun C s ok ref h rest).phase = .abort ∨
    ((startRun C s ok ref h rest).phase = .ub ∧
      (asyncLambda (C.outcome h.node)).retcode = none) ∨
    ((startRun C s ok ref h rest).phase = .unwinding .asyncFailed ∧ ok = false ∧
      C.threadCount ≠ 0 ∧ (startRun C s ok ref h rest).trace =
        s.trace ++ [.beforeRun s.erec h.node]) := by
  unfold startRun
  simp only
  split
  · exact .inr (.inl rfl)
  · split
    · exact .inl rfl
    · split
      · exact .inl rfl
      · split
        · rcases phase_collect (C := C) (s := (({ s.emit (.beforeRun s.erec h.node) with
              flags := { s.flags with started := setFlag s.flags.started h.node }
              used := s.used ++ C.resources h.node } : St).emit (.jobBegin h.node true)).emit
              (.jobEnd h.node)) (ref := ref)
              (h := { h with launched := true, start := s.now }) (rest := rest) with h1 | ⟨h1, h2⟩
          · exact .inl h1
          · exact .inr (.inr (.inl ⟨h1, h2⟩))
        · split
          · exact .inl rfl
          · rename_i h1 h2
            exact .inr (.inr (.inr ⟨rfl, by simpa using h2, h1, rfl⟩))

theorem phase_cleanStep {s : St} {ok d : Bool} (hp : s.phase = .clean d) :
    (cleanStep C s ok d).phase = .clean d ∨
    ((cleanStep C s ok d).phase = if d then .susp true else .pick) ∨
    (cleanStep C s ok d).phase = .abort ∨
    ((cleanStep C s ok d).phase = .ub ∧
      ∃ sl ∈ s.todo, (asyncLambda (C.outcome sl.h.node)).retcode = none) ∨
    ((cleanStep C s ok d).phase = .unwinding .asyncFailed ∧ ok = false ∧
      C.threadCount ≠ 0 ∧ ∃ sl ∈ s.todo, (cleanStep C s ok d).trace =
        s.trace ++ [.beforeRun s.erec sl.h.node]) := by
  unfold cleanStep
  split
  · exact .inr (.inl rfl)
  · rename_i sl rest ht
    split
    · rcases phase_startRun (C := C) (s := s) (ok := ok) (ref := sl.ref) (h := sl.h)
        (rest := rest) with h | h | ⟨h1, h2⟩ | ⟨h1, h2, h3, h4⟩
      · exact .inl (h.trans hp)
      · exact .inr (.inr (.inl h))
      · exact .inr (.inr (.inr (.inl ⟨h1, sl, by rw [ht]; simp, h2⟩)))
      · exact .inr (.inr (.inr (.inr ⟨h1, h2, h3, sl, by rw [ht]; simp, h4⟩)))
    · split
      · rcases phase_collect (C := C) (s := s) (ref := sl.ref) (h := sl.h)
          (rest := rest) with h | ⟨h1, h2⟩
        · exact .inl (h.trans hp)
        · exact .inr (.inr (.inr (.inl ⟨h1, sl, by rw [ht]; simp, h2⟩)))
      · exact .inl hp

theorem phase_pickStep {s : St} :
    (pickStep C s).phase = .susp false ∨ (pickStep C s).phase = .outOfFuel ∨
    (pickStep C s).phase = .abort := by
  unfold pickStep
  split
  · exact .inl rfl
  · split
    · exact .inr (.inl rfl)
    · exact .inl rfl
    · split
      · exact .inr (.inr rfl)
      · exact .inl rfl

theorem ctl_unwinding {s : St} {ok : Bool} {e : Exc} (h : (ctlStep C s ok).phase = .unwinding e) :
    (s.phase = .unwinding e ∧ (ctlStep C s ok).trace = s.trace) ∨
    (s.phase = .created ∧ (prologue C s).phase = .unwinding e) ∨
    (ok = false ∧ e = .asyncFailed ∧ C.threadCount ≠ 0 ∧ ∃ d, s.phase = .clean d ∧
      ∃ sl ∈ s.todo, (ctlStep C s ok).trace = s.trace ++ [.beforeRun s.erec sl.h.node]) := by
  unfold ctlStep at h ⊢
  split at h <;> rename_i hp
  · exact .inr (.inl ⟨hp, h⟩)
  · split at h <;> simp at h
  · rename_i d
    rcases phase_cleanStep (C := C) (ok := ok) hp with h1 | h1 | h1 | ⟨h1, _⟩ | ⟨h1, h2, h3, h4⟩
    · rw [h] at h1; cases h1
    · rw [h] at h1; split at h1 <;> cases h1
    · rw [h] at h1; cases h1
    · rw [h] at h1; cases h1
    · rw [h] at h1; injection h1 with h1
      exact .inr (.inr ⟨h2, h1, h3, d, hp, h4⟩)
  · rcases phase_pickStep (C := C) (s := s) with h1 | h1 | h1 <;> rw [h] at h1 <;> cases h1
  · split at h <;> cases h
  · split at h <;> simp at h
  · split at h
    · simp at h
    · left; refine ⟨h, ?_⟩; split <;> rfl
  · split at h <;> simp [hp] at h
  all_goals (first | (simp at h; done) | (rw [hp] at h; cases h))

theorem ctl_threw {s : St} {ok : Bool} {e : Exc} (h : (ctlStep C s ok).phase = .threw e) :
    s.phase = .unwinding e := by
  unfold ctlStep at h
  split at h <;> rename_i hp
  · exfalso
    unfold prologue at h
    simp only at h
    split at h <;> (try cases h)
    split at h <;> cases h
  · split at h <;> simp at h
  · rename_i d
    rcases phase_cleanStep (C := C) (ok := ok) hp with h1 | h1 | h1 | ⟨h1, _⟩ | ⟨h1, h2, h3, h4⟩
    · rw [h] at h1; cases h1
    · rw [h] at h1; split at h1 <;> cases h1
    · rw [h] at h1; cases h1
    · rw [h] at h1; cases h1
    · rw [h] at h1; cases h1
  · rcases phase_pickStep (C := C) (s := s) with h1 | h1 | h1 <;> rw [h] at h1 <;> cases h1
  · split at h <;> cases h
  · split at h <;> simp at h
  · split at h
    · simp at h; rw [hp, h]
    · rw [hp] at h; cases h
  · split at h <;> simp [hp] at h
  all_goals (first | (simp at h; done) | (rw [hp] at h; cases h))

theorem ctl_ub {s : St} {ok : Bool} (h : (ctlStep C s ok).phase = .ub) :
    s.phase = .ub ∨ (s.phase = .created ∧ (prologue C s).phase = .ub) ∨ s.phase = .finished ∨
    (∃ e, s.phase = .threw e) ∨
    (∃ d, s.phase = .clean d ∧ ∃ sl ∈ s.todo, (asyncLambda (C.outcome sl.h.node)).retcode = none)
    := by
  unfold ctlStep at h
  split at h <;> rename_i hp
  · exact .inr (.inl ⟨hp, h⟩)
  · split at h <;> simp at h
  · rename_i d
    rcases phase_cleanStep (C := C) (ok := ok) hp with h1 | h1 | h1 | ⟨h1, h2⟩ | ⟨h1, h2, h3, h4⟩
    · rw [h] at h1; cases h1
    · rw [h] at h1; split at h1 <;> cases h1
    · rw [h] at h1; cases h1
    · exact .inr (.inr (.inr (.inr ⟨d, hp, h2⟩)))
    · rw [h] at h1; cases h1
  · rcases phase_pickStep (C := C) (s := s) with h1 | h1 | h1 <;> rw [h] at h1 <;> cases h1
  · split at h <;> cases h
  · split at h <;> simp at h
  · split at h
    · simp at h
    · rw [hp] at h; cases h
  · split at h <;> simp [hp] at h
  · exact .inr (.inr (.inl hp))
  · exact .inr (.inr (.inr (.inl ⟨_, hp⟩)))
  · rw [hp] at h; cases h
  · exact .inl hp
  · rw [hp] at h; cases h
  · rw [hp] at h; cases h

/-- moves other than the control thread's keep the phase, or destroy -/
theorem phase_other {s : St} {m : Move} (h1 : m ≠ .ctl) (h2 : m ≠ .ctlFail)
    (h3 : ∀ f, m ≠ .fault f) :
    (step C s m).phase = s.phase ∨ (step C s m).phase = .destroying := by
  cases m with
  | ctl => exact absurd rfl h1
  | ctlFail => exact absurd rfl h2
  | fault f => exact absurd rfl (h3 f)
  | begin n => left; simp only [step]; split <;> (try rfl); split <;> rfl
  | finish n => left; simp only [step]; split <;> (try rfl); split <;> rfl
  | destroy => simp only [step, destroyStep]; split <;> simp

/-- why an execution can end with exception `e` -/
def Reason (C : Cfg) (s : St) : Exc → Prop
  | .cycle => Cyclic C.dag
  | .inval w => ¬ Cyclic C.dag ∧ ∃ pre n post, toProcessOf C.dag = pre ++ n :: post ∧
      (∀ m ∈ pre, Answers C.hasJob C.ask m) ∧ C.hasJob n = true ∧ C.ask n = .throws w
  | .asyncFailed => C.threadCount ≠ 0 ∧ ∃ er n, .beforeRun er n ∈ s.trace
  | .visitor => ∃ e ∈ s.trace, e.isCallback = true
  | .noMemory => True

/-- what a portion with a fault does to the phase -/
theorem fault_phase (s : St) (f : Fault) :
    faultStep C s f = ctlStep C s true ∨ (faultStep C s f).phase = .unwinding f.exc := by
  rcases fault_cases C s f with h1 | ⟨pre, er, r, ref, post, _, _, h3⟩ | ⟨pre, e, post, _, _, _, _, h3⟩ |
    ⟨_, _, h3⟩
  · exact .inl h1
  · right; rw [h3]
  · right; rw [h3]
  · right; rw [h3]

theorem Reason.mono {s s' : St} {e : Exc} (h : Reason C s e) {post : List Event}
    (ht : s'.trace = s.trace ++ post) : Reason C s' e := by
  cases e with
  | cycle => exact h
  | inval w => exact h
  | asyncFailed =>
    obtain ⟨h0, er, n, h⟩ := h
    exact ⟨h0, er, n, by rw [ht]; exact List.mem_append_left _ h⟩
  | visitor =>
    obtain ⟨e, h, hc⟩ := h
    exact ⟨e, by rw [ht]; exact List.mem_append_left _ h, hc⟩
  | noMemory => trivial

theorem reason_prologue (hwf : C.dag.WF) {e : Exc} {s : St}
    (h : (prologue C St.init).phase = .unwinding e) : Reason C s e := by
  rcases prologue_spec hwf with ⟨h1, c, _, hp, _⟩ | ⟨_, _, hp, _⟩ |
      ⟨h1, pre, n, post, h2, h3, h4, _, ⟨_, hp⟩ | ⟨h5, w, h6, hp⟩⟩ <;> rw [h] at hp
  · injection hp with hp; subst hp; exact h1
  · cases hp
  · cases hp
  · injection hp with hp; subst hp
    exact ⟨h1, pre, n, post, h2, h3, h5, h6⟩

theorem reason_exec (hwf : C.dag.WF) (ms : List Move) :
    ∀ e, (exec C ms).phase = .unwinding e ∨ (exec C ms).phase = .threw e →
      Reason C (exec C ms) e := by
  have : Inv C (exec C ms) ∧ ∀ e, (exec C ms).phase = .unwinding e ∨ (exec C ms).phase = .threw e →
      Reason C (exec C ms) e := by
    refine foldl_inv (P := fun s => Inv C s ∧ ∀ e, s.phase = .unwinding e ∨ s.phase = .threw e →
      Reason C s e) ?_ ms _ ⟨inv_init C, by simp [St.init]⟩
    rintro s m ⟨hI, h⟩
    refine ⟨inv_step hwf hI m, ?_⟩
    have hctl : ∀ ok e, (ctlStep C s ok).phase = .unwinding e ∨ (ctlStep C s ok).phase = .threw e →
        Reason C (ctlStep C s ok) e := by
      rintro ok e (he | he)
      · rcases ctl_unwinding he with ⟨h1, h2⟩ | ⟨h1, h2⟩ | ⟨_, rfl, h3, d, _, sl, _, h4⟩
        · exact (h e (.inl h1)).mono (post := []) (by simp [h2])
        · have := hI.createdInit h1
          subst this
          exact reason_prologue hwf h2
        · exact ⟨h3, _, _, by rw [h4]; exact List.mem_append_right _ (List.mem_singleton.2 rfl)⟩
      · have h1 := ctl_threw he
        have := h e (.inl h1)
        refine this.mono (post := []) ?_
        unfold ctlStep; rw [h1]; simp only; split <;> simp
    cases m with
    | ctl => exact hctl true
    | ctlFail => exact hctl false
    | fault f =>
      show ∀ e, (faultStep C s f).phase = _ ∨ (faultStep C s f).phase = _ →
        Reason C (faultStep C s f) e
      rcases fault_cases C s f with h1 | ⟨pre, er, r, ref, post, _, h2, h3⟩ |
          ⟨pre, e, post, _, _, hc, _, h3⟩ | ⟨rfl, _, h3⟩
      · rw [h1]; exact hctl true
      · rw [h3]
        rintro e (he | he)
        · cases he
          cases f with
          | visitor k => exact ⟨.afterRun er r ref, by rw [h2]; simp, rfl⟩
          | memory k => trivial
          | memoryBefore => trivial
        · cases he
      · rw [h3]
        rintro x (he | he)
        · cases he
          cases f with
          | visitor k => exact ⟨e, by simp, hc⟩
          | memory k => trivial
          | memoryBefore => trivial
        · cases he
      · rw [h3]
        rintro x (he | he)
        · cases he
          trivial
        · cases he
    | begin n =>
      intro e he
      simp only [step] at he ⊢
      split at he
      · rename_i hd; rw [if_pos hd]; exact h e he
      · rename_i hd; rw [if_neg hd]
        split at he
        · rename_i hq; rw [if_pos hq]; exact (h e he).mono (post := [_]) rfl
        · rename_i hq; rw [if_neg hq]; exact h e he
    | finish n =>
      intro e he
      simp only [step] at he ⊢
      split at he
      · rename_i hd; rw [if_pos hd]; exact h e he
      · rename_i hd; rw [if_neg hd]
        split at he
        · rename_i hq; rw [if_pos hq]; exact (h e he).mono (post := [_]) rfl
        · rename_i hq; rw [if_neg hq]; exact h e he
    | destroy =>
      intro e he
      simp only [step, destroyStep] at he ⊢
      split at he <;> first | (simp at he) | skip
      rename_i h1 h2 h3 h4
      exact h e he
  exact this.2

/-- an exception of the visitor or of an allocation needs a fault of that kind -/
theorem fault_only (ms : List Move) {x : Exc} (hx : x = .visitor ∨ x = .noMemory)
    (h : (exec C ms).phase = .unwinding x ∨ (exec C ms).phase = .threw x) :
    ∃ f, .fault f ∈ ms ∧ f.exc = x := by
  by_contra hc
  have : (exec C ms).phase ≠ .unwinding x ∧ (exec C ms).phase ≠ .threw x := by
    clear h
    induction ms using List.reverseRecOn with
    | nil => simp [exec, St.init]
    | append_singleton ms m ih =>
      obtain ⟨i1, i2⟩ := ih (fun ⟨k, hk, hk'⟩ => hc ⟨k, List.mem_append_left _ hk, hk'⟩)
      rw [exec_append]
      simp only [List.foldl]
      have hctl : ∀ ok, (ctlStep C (exec C ms) ok).phase ≠ .unwinding x ∧
          (ctlStep C (exec C ms) ok).phase ≠ .threw x := by
        intro ok
        constructor
        · intro h
          rcases ctl_unwinding h with ⟨h, _⟩ | ⟨_, h⟩ | ⟨_, h, _⟩
          · exact i1 h
          · unfold prologue at h
            simp only at h
            rcases hx with rfl | rfl
            · split at h <;> (try cases h)
              split at h <;> cases h
            · split at h <;> (try cases h)
              split at h <;> cases h
          · rw [h] at hx; rcases hx with hx | hx <;> cases hx
        · intro h; exact i1 (ctl_threw h)
      by_cases hm : m = .ctl
      · subst hm; exact hctl true
      by_cases hm2 : m = .ctlFail
      · subst hm2; exact hctl false
      by_cases hf : ∃ f, m = .fault f
      · obtain ⟨f, rfl⟩ := hf
        show (faultStep C (exec C ms) f).phase ≠ _ ∧ (faultStep C (exec C ms) f).phase ≠ _
        have hfx : f.exc ≠ x := fun h => hc ⟨f, by simp, h⟩
        rcases fault_phase (C := C) (exec C ms) f with h | h <;> rw [h]
        · exact hctl true
        · exact ⟨fun h => hfx (by injection h), by simp⟩
      rcases phase_other (C := C) (s := exec C ms) hm hm2
        (fun k hk => hf ⟨k, hk⟩) with h | h <;> rw [h]
      · exact ⟨i1, i2⟩
      · simp
  rcases h with h | h
  · exact this.1 h
  · exact this.2 h

theorem vis_only (ms : List Move)
    (h : (exec C ms).phase = .unwinding .visitor ∨ (exec C ms).phase = .threw .visitor) :
    ∃ k, .visThrow k ∈ ms := by
  obtain ⟨f, h1, h2⟩ := fault_only ms (.inl rfl) h
  cases f with
  | visitor k => exact ⟨k, h1⟩
  | memory k => cases h2
  | memoryBefore => cases h2

end Joque
