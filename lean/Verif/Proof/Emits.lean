import Verif.Model.Exec

/-! # What a portion of the control thread adds to the history -/

namespace Joque

variable {C : Cfg}

/-- the events a portion of the control thread can add in state `s`, and the phase it leads to -/
inductive Emits (C : Cfg) (s : St) : List Event → Phase → Prop where
  | none (p : Phase) : Emits C s [] p
  | prologue (evs : List Event) (hp : s.phase = .created)
      (he : (Joque.prologue C s).trace = s.trace ++ evs) : Emits C s evs (Joque.prologue C s).phase
  | tick (hp : s.phase = .loopTop) (ht : s.toProcess ≠ []) :
      Emits C s [.onTick s.erec] (.clean false)
  | resumed (d : Bool) (hp : s.phase = .susp d) :
      Emits C s [.resumed] (if d then .drainTop else .loopTop)
  | afterExecution (hp : s.phase = .drainTop) (ht : s.todo = []) :
      Emits C s [.afterExecution s.erec] .finished
  | notRun (d : Bool) (sl : Slot) (rest : List Slot) (r : RunRecord) (hp : s.phase = .clean d)
      (ht : s.todo = sl :: rest) (hl : sl.h.launched = false) (hr : r.node = sl.h.node)
      (hs : r.status = .skip ∨ r.status = .depf) :
      Emits C s [.beforeRun s.erec sl.h.node, .afterRun s.erec r sl.ref] (.clean d)
  | launch (d : Bool) (sl : Slot) (rest : List Slot) (hp : s.phase = .clean d)
      (ht : s.todo = sl :: rest) (hl : sl.h.launched = false) (h0 : C.threadCount ≠ 0) :
      Emits C s [.beforeRun s.erec sl.h.node, .launch sl.h.node] (.clean d)
  | asyncFailed (d : Bool) (sl : Slot) (rest : List Slot) (hp : s.phase = .clean d)
      (ht : s.todo = sl :: rest) (hl : sl.h.launched = false) (h0 : C.threadCount ≠ 0) :
      Emits C s [.beforeRun s.erec sl.h.node] (.unwinding .asyncFailed)
  | deferredUb (d : Bool) (sl : Slot) (rest : List Slot) (hp : s.phase = .clean d)
      (ht : s.todo = sl :: rest) (hl : sl.h.launched = false) (h0 : C.threadCount = 0) :
      Emits C s [.beforeRun s.erec sl.h.node, .jobBegin sl.h.node true, .jobEnd sl.h.node] .ub
  | deferred (d : Bool) (sl : Slot) (rest : List Slot) (log : Str) (r : RunRecord)
      (hp : s.phase = .clean d) (ht : s.todo = sl :: rest) (hl : sl.h.launched = false)
      (h0 : C.threadCount = 0) (hr : r.node = sl.h.node) (hs : r.status = .ok ∨ r.status = .fail)
      (hg : log = (asyncLambda (C.outcome sl.h.node)).log) :
      Emits C s [.beforeRun s.erec sl.h.node, .jobBegin sl.h.node true, .jobEnd sl.h.node,
        .runLog sl.h.node log, .afterRun s.erec r sl.ref] (.clean d)
  | collect (d : Bool) (sl : Slot) (rest : List Slot) (log : Str) (r : RunRecord)
      (hp : s.phase = .clean d) (ht : s.todo = sl :: rest) (hl : sl.h.launched = true)
      (hw : s.worker sl.h.node = .finished) (hr : r.node = sl.h.node)
      (hs : r.status = .ok ∨ r.status = .fail)
      (hg : log = (asyncLambda (C.outcome sl.h.node)).log) :
      Emits C s [.runLog sl.h.node log, .afterRun s.erec r sl.ref] (.clean d)

theorem prologue_extends (C : Cfg) (s : St) : ∃ evs, (prologue C s).trace = s.trace ++ evs := by
  unfold prologue
  dsimp only
  split
  · exact ⟨_, rfl⟩
  · exact ⟨_, rfl⟩
  · exact ⟨_, by rw [List.append_assoc]⟩
  · split
    · exact ⟨_, by rw [List.append_assoc]⟩
    · exact ⟨_, by rw [List.append_assoc]⟩
    · exact ⟨_, by rw [List.append_assoc, List.append_assoc]⟩
    · exact ⟨_, by rw [List.append_assoc, List.append_assoc]⟩
    · exact ⟨_, by rw [List.append_assoc, List.append_assoc]⟩

theorem collect_events {s s0 : St} {ref : Node} {h : Handle} {rest : List Slot} {evs : List Event}
    (ht : s0.trace = s.trace ++ evs) (he : s0.erec = s.erec) :
    ((collect C s0 ref h rest).trace = s.trace ++ evs ∧ (collect C s0 ref h rest).phase = .ub) ∨
    ∃ log r, r.node = h.node ∧ (r.status = .ok ∨ r.status = .fail) ∧
      (collect C s0 ref h rest).trace =
        s.trace ++ (evs ++ [.runLog h.node log, .afterRun s.erec r ref]) ∧
      (collect C s0 ref h rest).phase = s0.phase ∧ log = (asyncLambda (C.outcome h.node)).log := by
  unfold collect
  dsimp only
  split
  · exact .inl ⟨ht, rfl⟩
  · right
    rename_i rc hrc
    refine ⟨(asyncLambda (C.outcome h.node)).log,
      { node := h.node, t := C.dag.task h.node, name := C.dag.name h.node
        status := if rc ≠ 0 then .fail else .ok
        retcode := rc, start := h.start, «end» := s0.trace.length + 1
        output := (asyncLambda (C.outcome h.node)).output }, rfl, ?_, ?_, ?_, rfl⟩
    · dsimp only
      split <;> simp
    · by_cases h0 : rc = 0
      · simp [h0, complete, St.emit, St.now, ht, he, Nat.add_assoc]
      · simp [h0, complete, St.emit, St.now, ht, he, Nat.add_assoc]
    · by_cases h0 : rc = 0
      · simp [h0, complete, St.emit]
      · simp [h0, complete, St.emit]

theorem ctl_events (C : Cfg) (s : St) (ok : Bool) :
    ∃ evs, (ctlStep C s ok).trace = s.trace ++ evs ∧ Emits C s evs (ctlStep C s ok).phase := by
  have nil : ∀ s' : St, s'.trace = s.trace →
      ∃ evs, s'.trace = s.trace ++ evs ∧ Emits C s evs s'.phase :=
    fun s' h => ⟨[], by rw [h, List.append_nil], .none _⟩
  unfold ctlStep
  cases hp : s.phase with
  | created =>
    dsimp only
    obtain ⟨evs, h⟩ := prologue_extends C s
    exact ⟨evs, h, .prologue evs hp h⟩
  | loopTop =>
    dsimp only
    split
    · exact nil _ rfl
    · rename_i h
      exact ⟨[.onTick s.erec], rfl, .tick hp h⟩
  | clean d =>
    dsimp only
    unfold cleanStep
    split
    · exact nil _ rfl
    · rename_i sl rest ht
      split
      · rename_i hl
        have hl' : sl.h.launched = false := by simpa using hl
        unfold startRun
        dsimp only
        split
        · exact nil _ rfl
        · split
          · exact ⟨_, by simp only [complete, St.emit, List.append_assoc]; rfl,
              by
              show Emits C s _ s.phase
              rw [hp]
              exact .notRun d sl rest _ hp ht hl' rfl (.inr rfl)⟩
          · split
            · exact ⟨_, by simp only [complete, St.emit, List.append_assoc]; rfl,
                by
              show Emits C s _ s.phase
              rw [hp]
              exact .notRun d sl rest _ hp ht hl' rfl (.inl rfl)⟩
            · split
              · rename_i h0
                rcases collect_events (C := C) (s := s)
                    (s0 := (({ s.emit (.beforeRun s.erec sl.h.node) with
                      flags := { s.flags with started := setFlag s.flags.started sl.h.node }
                      used := s.used ++ C.resources sl.h.node } : St).emit
                        (.jobBegin sl.h.node true)).emit (.jobEnd sl.h.node))
                    (ref := sl.ref) (h := { sl.h with launched := true, start := s.now })
                    (rest := rest)
                    (evs := [.beforeRun s.erec sl.h.node, .jobBegin sl.h.node true,
                      .jobEnd sl.h.node]) (by simp [St.emit]) rfl with ⟨h, h'⟩ | ⟨log, r, h1, h2, h3, h4, h5⟩
                · exact ⟨_, h, h' ▸ .deferredUb d sl rest hp ht hl' h0⟩
                · exact ⟨_, h3, (h4.trans hp) ▸ .deferred d sl rest log r hp ht hl' h0 h1 h2 h5⟩
              · rename_i h0
                split
                · exact ⟨_, by simp only [St.emit, List.append_assoc]; rfl,
                    by
              show Emits C s _ s.phase
              rw [hp]
              exact .launch d sl rest hp ht hl' h0⟩
                · exact ⟨_, rfl, .asyncFailed d sl rest hp ht hl' h0⟩
      · rename_i hl
        have hl' : sl.h.launched = true := by simpa using hl
        split
        · rename_i hw
          rcases collect_events (C := C) (s := s) (s0 := s) (ref := sl.ref) (h := sl.h)
            (rest := rest) (evs := []) (by simp) rfl with ⟨h, h'⟩ | ⟨log, r, h1, h2, h3, h4, h5⟩
          · exact ⟨[], by simpa using h, .none _⟩
          · exact ⟨_, h3, (h4.trans hp) ▸ .collect d sl rest log r hp ht hl' hw h1 h2 h5⟩
        · exact nil _ rfl
  | pick =>
    dsimp only
    unfold pickStep
    split
    · exact nil _ rfl
    · split
      · exact nil _ rfl
      · exact nil _ rfl
      · split <;> exact nil _ rfl
  | susp d =>
    exact ⟨[.resumed], rfl, .resumed d hp⟩
  | drainTop =>
    dsimp only
    split
    · rename_i h
      exact ⟨[.afterExecution s.erec], rfl, .afterExecution hp h⟩
    · exact nil _ rfl
  | unwinding e => dsimp only; split <;> exact nil _ rfl
  | destroying => dsimp only; split <;> exact nil _ rfl
  | finished => exact nil _ rfl
  | threw e => exact nil _ rfl
  | destroyed => exact nil _ rfl
  | ub => exact nil _ rfl
  | abort => exact nil _ rfl
  | outOfFuel => exact nil _ rfl

/-- The ways a portion with a fault can end: as an ordinary one, after `after_run`, after another
event, or before any. -/
theorem fault_cases (C : Cfg) (s : St) (f : Fault) :
    faultStep C s f = ctlStep C s true ∨
    (∃ pre er r ref post, Emits C s (pre ++ .afterRun er r ref :: post) (ctlStep C s true).phase ∧
      (ctlStep C s true).trace = s.trace ++ (pre ++ .afterRun er r ref :: post) ∧
      faultStep C s f = { ctlStep C s true with phase := .unwinding f.exc }) ∨
    (∃ pre e post, Emits C s (pre ++ e :: post) (ctlStep C s true).phase ∧
      (ctlStep C s true).trace = s.trace ++ (pre ++ e :: post) ∧
      f.cuts e = true ∧ (∀ er r ref, e ≠ .afterRun er r ref) ∧
      faultStep C s f =
        { s with phase := .unwinding f.exc, trace := s.trace ++ (pre ++ [e]) }) ∨
    (f = .memoryBefore ∧
      (s.phase = .loopTop ∨ (∃ d, s.phase = .clean d) ∨ s.phase = .pick ∨ s.phase = .drainTop) ∧
      faultStep C s f = { s with phase := .unwinding f.exc }) := by
  have key : ∀ k, faultStep C s f = throwStep C s f k →
      faultStep C s f = ctlStep C s true ∨
      (∃ pre er r ref post, Emits C s (pre ++ .afterRun er r ref :: post) (ctlStep C s true).phase ∧
        (ctlStep C s true).trace = s.trace ++ (pre ++ .afterRun er r ref :: post) ∧
        faultStep C s f = { ctlStep C s true with phase := .unwinding f.exc }) ∨
      (∃ pre e post, Emits C s (pre ++ e :: post) (ctlStep C s true).phase ∧
        (ctlStep C s true).trace = s.trace ++ (pre ++ e :: post) ∧
        f.cuts e = true ∧ (∀ er r ref, e ≠ .afterRun er r ref) ∧
        faultStep C s f =
          { s with phase := .unwinding f.exc, trace := s.trace ++ (pre ++ [e]) }) := by
    intro k hf
    rw [hf]
    obtain ⟨evs, h1, h2⟩ := ctl_events C s true
    cases hk : evs[k]? with
    | none =>
      left
      unfold throwStep
      simp only [h1]
      rw [List.getElem?_append_right (by omega), Nat.add_sub_cancel_left, hk]
    | some e =>
      obtain ⟨hlt, he⟩ := List.getElem?_eq_some_iff.1 hk
      have hev : evs = evs.take k ++ e :: evs.drop (k + 1) := by
        rw [← he, List.getElem_cons_drop, List.take_append_drop]
      have htake : (s.trace ++ evs).take (s.trace.length + k + 1) =
          s.trace ++ (evs.take k ++ [e]) := by
        rw [List.take_append, List.take_of_length_le (by omega), Nat.add_assoc,
          Nat.add_sub_cancel_left, List.take_add_one, hk]
        rfl
      by_cases hc : f.cuts e = true
      · right
        by_cases ha : ∃ er r ref, e = .afterRun er r ref
        · obtain ⟨er, r, ref, rfl⟩ := ha
          left
          refine ⟨evs.take k, er, r, ref, evs.drop (k + 1), hev ▸ h2, hev ▸ h1, ?_⟩
          unfold throwStep
          simp only [h1]
          rw [List.getElem?_append_right (by omega), Nat.add_sub_cancel_left, hk]
          simp only [hc, if_true]
        · right
          refine ⟨evs.take k, e, evs.drop (k + 1), hev ▸ h2, hev ▸ h1, hc,
            fun er r ref h => ha ⟨er, r, ref, h⟩, ?_⟩
          unfold throwStep
          simp only [h1]
          rw [List.getElem?_append_right (by omega), Nat.add_sub_cancel_left, hk, htake]
          simp only [hc, if_true]
          split
          · rename_i e' er r ref
            exact absurd ⟨er, r, ref, rfl⟩ ha
          · rfl
      · left
        unfold throwStep
        simp only [h1]
        rw [List.getElem?_append_right (by omega), Nat.add_sub_cancel_left, hk]
        simp only [hc]
        rfl
  cases f with
  | visitor k =>
    rcases key k rfl with h | h | h
    · exact .inl h
    · exact .inr (.inl h)
    · exact .inr (.inr (.inl h))
  | memory k =>
    rcases key k rfl with h | h | h
    · exact .inl h
    · exact .inr (.inl h)
    · exact .inr (.inr (.inl h))
  | memoryBefore =>
    cases hp : s.phase with
    | loopTop => exact .inr (.inr (.inr ⟨rfl, .inl rfl, by simp only [faultStep, hp]; rfl⟩))
    | clean d => exact .inr (.inr (.inr ⟨rfl, .inr (.inl ⟨d, rfl⟩), by simp only [faultStep, hp]; rfl⟩))
    | pick => exact .inr (.inr (.inr ⟨rfl, .inr (.inr (.inl rfl)), by simp only [faultStep, hp]; rfl⟩))
    | drainTop =>
      exact .inr (.inr (.inr ⟨rfl, .inr (.inr (.inr rfl)), by simp only [faultStep, hp]; rfl⟩))
    | _ => exact .inl (by simp only [faultStep, hp])

/-- A fault never follows the launch or the start of a job. -/
theorem Fault.cuts_not {f : Fault} {e : Event} (h : f.cuts e = true) :
    (∀ n, e ≠ .launch n) ∧ ∀ n b, e ≠ .jobBegin n b := by
  constructor <;> intros <;> rintro rfl <;> cases f <;> simp [Fault.cuts, Event.isCallback] at h

/-- A fault of the visitor happens in a callback. -/
theorem Fault.cuts_visitor {k : Nat} {e : Event} (h : (Fault.visitor k).cuts e = true) :
    e.isCallback = true := h

/-- A portion that calls a visitor callback starts in one of these phases. -/
theorem Emits.phase_of_mem {s : St} {evs : List Event} {p : Phase} (h : Emits C s evs p)
    {e : Event} (he : e ∈ evs) :
    s.phase = .created ∨ s.phase = .loopTop ∨ (∃ d, s.phase = .susp d) ∨ s.phase = .drainTop ∨
      ∃ d, s.phase = .clean d := by
  cases h <;> simp_all

/-- `after_run` is the last event of its portion, in `cleanup_coros`. -/
theorem Emits.after_last {s : St} {pre post : List Event} {p : Phase} {er : ExecRecord}
    {r : RunRecord} {ref : Node} (h : Emits C s (pre ++ .afterRun er r ref :: post) p) :
    s.phase = .created ∨ (post = [] ∧ ∃ d, s.phase = .clean d ∧ p = .clean d) := by
  generalize hev : pre ++ Event.afterRun er r ref :: post = evs at h
  cases h with
  | prologue evs hp he => exact .inl hp
  | none => simp at hev
  | tick => rcases pre with _ | ⟨_, pre⟩ <;> simp at hev
  | resumed => rcases pre with _ | ⟨_, pre⟩ <;> simp at hev
  | afterExecution => rcases pre with _ | ⟨_, pre⟩ <;> simp at hev
  | notRun d sl rest r hp =>
    rcases pre with _ | ⟨_, _ | ⟨_, pre⟩⟩ <;> simp at hev
    exact .inr ⟨hev.2.2, d, hp, rfl⟩
  | launch => rcases pre with _ | ⟨_, _ | ⟨_, pre⟩⟩ <;> simp at hev
  | asyncFailed => rcases pre with _ | ⟨_, pre⟩ <;> simp at hev
  | deferredUb => rcases pre with _ | ⟨_, _ | ⟨_, _ | ⟨_, pre⟩⟩⟩ <;> simp at hev
  | deferred d sl rest log r hp =>
    rcases pre with _ | ⟨_, _ | ⟨_, _ | ⟨_, _ | ⟨_, _ | ⟨_, pre⟩⟩⟩⟩⟩ <;> simp at hev
    exact .inr ⟨hev.2.2.2.2.2, d, hp, rfl⟩
  | collect d sl rest log r hp =>
    rcases pre with _ | ⟨_, _ | ⟨_, pre⟩⟩ <;> simp at hev
    exact .inr ⟨hev.2.2, d, hp, rfl⟩

/-- Outside these phases a portion with a fault is an ordinary one. -/
theorem fault_quiet (C : Cfg) {s : St} (f : Fault)
    (h : s.phase ≠ .created ∧ s.phase ≠ .loopTop ∧ (∀ d, s.phase ≠ .susp d) ∧
      s.phase ≠ .drainTop ∧ (∀ d, s.phase ≠ .clean d) ∧ s.phase ≠ .pick) :
    faultStep C s f = ctlStep C s true := by
  rcases fault_cases C s f with h1 | ⟨pre, er, r, ref, post, h1, _, _⟩ | ⟨pre, e, post, h1, _⟩ |
    ⟨_, q, _⟩
  · exact h1
  · rcases h1.phase_of_mem (e := .afterRun er r ref) (by simp) with q | q | ⟨d, q⟩ | q | ⟨d, q⟩
    · exact absurd q h.1
    · exact absurd q h.2.1
    · exact absurd q (h.2.2.1 d)
    · exact absurd q h.2.2.2.1
    · exact absurd q (h.2.2.2.2.1 d)
  · rcases h1.phase_of_mem (e := e) (by simp) with q | q | ⟨d, q⟩ | q | ⟨d, q⟩
    · exact absurd q h.1
    · exact absurd q h.2.1
    · exact absurd q (h.2.2.1 d)
    · exact absurd q h.2.2.2.1
    · exact absurd q (h.2.2.2.2.1 d)
  · rcases q with q | ⟨d, q⟩ | q | q
    · exact absurd q h.2.1
    · exact absurd q (h.2.2.2.2.1 d)
    · exact absurd q h.2.2.2.2.2
    · exact absurd q h.2.2.2.1

/-- No `after_run` before another event of the same portion. -/
theorem Emits.no_after {s : St} {pre post : List Event} {e : Event} {p : Phase}
    (h : Emits C s (pre ++ e :: post) p) (hp : s.phase ≠ .created) :
    ∀ er r ref, .afterRun er r ref ∉ pre := by
  intro er r ref hm
  obtain ⟨a, b, rfl⟩ := List.append_of_mem hm
  rw [List.append_assoc, List.cons_append] at h
  rcases h.after_last with h1 | ⟨h1, _⟩
  · exact hp h1
  · simp at h1

end Joque
