import Verif.Spec.Replay
import Verif.Proof.OneWorker
import Verif.Props.Parallel

/-! # Two executions in lockstep -/

namespace Joque

variable {C : Cfg}

def Handle.untimed (h : Handle) : Handle := { h with start := 0 }

def Slot.untimed (sl : Slot) : Slot := { sl with h := sl.h.untimed }

/-- both executions are at the same point of the control thread -/
structure Abreast (s t : St) : Prop where
  phase : s.phase = t.phase
  tp : s.toProcess = t.toProcess
  flags : s.flags = t.flags
  used : s.used = t.used
  todo : s.todo.map Slot.untimed = t.todo.map Slot.untimed
  kept : s.kept.map Handle.untimed = t.kept.map Handle.untimed
  passed : s.passed = t.passed
  erec : s.erec.untimed = t.erec.untimed
  trace : control s.trace = control t.trace

theorem Abreast.rfl' (s : St) : Abreast s s := ⟨rfl, rfl, rfl, rfl, rfl, rfl, rfl, rfl, rfl⟩

theorem Abreast.symm {s t : St} (h : Abreast s t) : Abreast t s :=
  ⟨h.1.symm, h.2.symm, h.3.symm, h.4.symm, h.5.symm, h.6.symm, h.7.symm, h.8.symm, h.9.symm⟩

theorem control_append (a b : List Event) : control (a ++ b) = control a ++ control b :=
  List.filterMap_append

theorem control_resumed (tr : List Event) : (control tr).count .resumed = tr.count .resumed := by
  induction tr with
  | nil => rfl
  | cons e tr ih =>
    have h : control (e :: tr) = control [e] ++ control tr := control_append [e] tr
    rw [h, List.count_append, ih, List.count_cons]
    cases e <;> simp [control, Event.control, Nat.add_comm, List.filterMap_cons]

theorem Abreast.ticks {s t : St} (h : Abreast s t) : s.trace.count .resumed = t.trace.count .resumed := by
  rw [← control_resumed s.trace, h.trace, control_resumed]

/-- a job is begun or ended -/
theorem abreast_worker {s t : St} (h : Abreast s t) (n : Node) (m : Move) (hm : m = .begin n ∨ m = .finish n) :
    Abreast (step C s m) t := by
  rcases hm with rfl | rfl <;> simp only [step] <;> split
  · exact h
  · split
    · exact ⟨h.1, h.2, h.3, h.4, h.5, h.6, h.7, h.8, by
        simp only [St.emit]; rw [control_append, ← h.trace]; simp [control, Event.control]⟩
    · exact h
  · exact h
  · split
    · exact ⟨h.1, h.2, h.3, h.4, h.5, h.6, h.7, h.8, by
        simp only [St.emit]; rw [control_append, ← h.trace]; simp [control, Event.control]⟩
    · exact h

theorem abreast_complete {s t : St} (h : Abreast s t) {ref : Node} {rest rest' : List Slot}
    (hr : rest.map Slot.untimed = rest'.map Slot.untimed) {r r' : RunRecord}
    (hrr : r.untimed = r'.untimed) : Abreast (complete s ref rest r) (complete t ref rest' r') := by
  refine ⟨h.1, h.2, h.3, h.4, hr, h.6, ?_, untimed_push h.erec hrr, ?_⟩
  · simp only [complete, St.emit]; rw [h.passed]
  · simp only [complete, St.emit]
    rw [control_append, control_append, h.trace]
    simp [control, Event.control, h.erec, hrr]

theorem abreast_collect {s t : St} (h : Abreast s t) {ref : Node} {a b : Handle}
    (hab : a.untimed = b.untimed) {rest rest' : List Slot}
    (hr : rest.map Slot.untimed = rest'.map Slot.untimed) :
    Abreast (collect C s ref a rest) (collect C t ref b rest') := by
  have hn : a.node = b.node := by
    have := congrArg Handle.node hab
    exact this
  unfold collect
  rw [hn]
  dsimp only
  split
  · exact ⟨rfl, h.2, h.3, h.4, h.5, h.6, h.7, h.8, h.9⟩
  · refine abreast_complete ?_ hr ?_
    · constructor
      all_goals simp only [St.emit]
      all_goals split
      all_goals first
        | exact h.phase | exact h.tp | exact h.todo | exact h.kept | exact h.passed | exact h.erec
        | (dsimp only; rw [h.flags]) | (dsimp only; rw [h.used])
        | (dsimp only; rw [control_append, control_append, h.trace])
    · simp [RunRecord.untimed]

theorem abreast_startRun {s t : St} (h : Abreast s t) {ok : Bool} {ref : Node} {a b : Handle}
    (hab : a.untimed = b.untimed) {rest rest' : List Slot}
    (hr : rest.map Slot.untimed = rest'.map Slot.untimed) :
    Abreast (startRun C s ok ref a rest) (startRun C t ok ref b rest') := by
  have hn : a.node = b.node := by
    have := congrArg Handle.node hab
    exact this
  unfold startRun
  rw [hn, h.flags]
  dsimp only
  have hb : Abreast (s.emit (.beforeRun s.erec b.node)) (t.emit (.beforeRun t.erec b.node)) :=
    ⟨h.1, h.2, h.3, h.4, h.5, h.6, h.7, h.8, by
      simp only [St.emit]; rw [control_append, control_append, h.trace]
      simp [control, Event.control, h.erec]⟩
  split
  · exact ⟨rfl, h.2, rfl, h.4, h.5, h.6, h.7, h.8, h.9⟩
  · have hf : (s.emit (.beforeRun s.erec b.node)).flags = t.flags := h.flags
    have hf' : (t.emit (.beforeRun t.erec b.node)).flags = t.flags := rfl
    rw [hf, hf']
    split
    · refine abreast_complete ?_ hr ?_
      · exact ⟨hb.1, hb.2, rfl, hb.4, hb.5, hb.6, hb.7, hb.8, hb.9⟩
      simp [RunRecord.untimed]
    · split
      · refine abreast_complete ?_ hr ?_
        · exact ⟨hb.1, hb.2, rfl, hb.4, hb.5, hb.6, hb.7, hb.8, hb.9⟩
        simp [RunRecord.untimed]
      · split
        · refine abreast_collect (C := C) ?_ ?_ hr
          rotate_left
          · simp [Handle.untimed]
          refine ⟨hb.1, hb.2, rfl, ?_, hb.5, hb.6, hb.7, hb.8, ?_⟩
          · show _ ++ _ = _ ++ _
            rw [hb.used]
          · simp only [St.emit]
            have := hb.trace
            simp only [St.emit] at this
            rw [control_append, control_append, this, ← control_append, ← control_append]
        · split
          · refine ⟨hb.1, hb.2, rfl, ?_, ?_, hb.6, hb.7, hb.8, ?_⟩
            · show _ ++ _ = _ ++ _
              rw [hb.used]
            · simp [Slot.untimed, Handle.untimed, hr]
            · have := hb.trace
              simp only [St.emit] at this ⊢
              rw [control_append, this, ← control_append]
          · refine ⟨rfl, hb.2, rfl, ?_, hr, hb.6, hb.7, hb.8, hb.9⟩
            show _ ++ _ = _ ++ _
            rw [hb.used]

theorem untimed_nil {a b : List Slot} (h : a.map Slot.untimed = b.map Slot.untimed) :
    a = [] ↔ b = [] := by
  rw [← List.map_eq_nil_iff (f := Slot.untimed), h, List.map_eq_nil_iff]

theorem zip_untimed (p : List Node) : ∀ k k' : List Handle,
    k.map Handle.untimed = k'.map Handle.untimed →
    (List.zipWith Slot.mk p k).map Slot.untimed = (List.zipWith Slot.mk p k').map Slot.untimed := by
  induction p with
  | nil => intro k k' _; rfl
  | cons a p ih =>
    intro k k' h
    cases k with
    | nil => cases k' with
      | nil => rfl
      | cons b k' => simp at h
    | cons b k => cases k' with
      | nil => simp at h
      | cons b' k' =>
        simp only [List.map_cons, List.cons.injEq] at h
        simp [ih k k' h.2, Slot.untimed, h.1]

/-- the two executions take the same decision at the same coroutine -/
theorem abreast_clean {s t : St} (h : Abreast s t) {ok d : Bool}
    (hw : ∀ sl rest, s.todo = sl :: rest → sl.h.launched = true →
      (s.worker sl.h.node = .finished ↔ t.worker sl.h.node = .finished)) :
    Abreast (cleanStep C s ok d) (cleanStep C t ok d) := by
  have ht := h.todo
  unfold cleanStep
  cases hs : s.todo with
  | nil =>
    rw [hs] at ht
    have h0 : t.todo = [] := by simpa using ht.symm
    rw [h0]
    dsimp only
    exact ⟨rfl, h.2, h.3, h.4, by dsimp only; rw [h.passed]; exact zip_untimed _ _ _ h.kept, rfl, rfl,
      h.8, h.9⟩
  | cons sl rest =>
    rw [hs] at ht
    cases hs' : t.todo with
    | nil => rw [hs'] at ht; simp at ht
    | cons sl' rest' =>
      rw [hs'] at ht
      simp only [List.map_cons, List.cons.injEq] at ht
      have hr : sl.ref = sl'.ref := by
        have := congrArg Slot.ref ht.1
        exact this
      have hh : sl.h.untimed = sl'.h.untimed := congrArg Slot.h ht.1
      have hl : sl.h.launched = sl'.h.launched := by
        have := congrArg Handle.launched hh
        exact this
      have hn : sl.h.node = sl'.h.node := by
        have := congrArg Handle.node hh
        exact this
      have hw' := hw sl rest hs
      dsimp only
      rw [hr, ← hl]
      split
      · exact abreast_startRun h hh ht.2
      · rename_i hlt
        have hw'' := hw' (by simpa using hlt)
        rw [← hn]
        by_cases hf : s.worker sl.h.node = .finished
        · rw [if_pos hf, if_pos (hw''.1 hf)]
          exact abreast_collect h hh ht.2
        · rw [if_neg hf, if_neg (fun e => hf (hw''.2 e))]
          refine ⟨h.1, h.2, h.3, h.4, ht.2, ?_, ?_, h.8, h.9⟩
          · simp [h.kept, hh]
          · simp [h.passed]

/-- a portion of the control thread in which both take the same decision -/
theorem abreast_ctl {s t : St} (h : Abreast s t)
    (hc : s.phase = .created → s = t)
    (hu : (∀ e, s.phase ≠ .unwinding e) ∧ s.phase ≠ .destroying)
    (hw : ∀ d sl rest, s.phase = .clean d → s.todo = sl :: rest → sl.h.launched = true →
      (s.worker sl.h.node = .finished ↔ t.worker sl.h.node = .finished)) :
    Abreast (ctlStep C s true) (ctlStep C t true) := by
  unfold ctlStep
  rw [← h.phase]
  cases hp : s.phase with
  | created => rw [hc hp]; exact Abreast.rfl' _
  | loopTop =>
    dsimp only
    rw [h.tp]
    split
    · exact ⟨rfl, rfl, h.3, h.4, h.5, h.6, h.7, h.8, h.9⟩
    · refine ⟨rfl, h.2, h.3, h.4, h.5, h.6, h.7, h.8, ?_⟩
      simp only [St.emit]
      rw [control_append, control_append, h.trace]
      simp [control, Event.control, h.erec]
  | clean d => exact abreast_clean h (fun sl rest => hw d sl rest hp)
  | pick =>
    dsimp only
    unfold pickStep
    have hlen : s.todo.length = t.todo.length := by
      have := congrArg List.length h.todo
      simpa using this
    rw [hlen, h.flags, h.used, h.tp]
    split
    · exact ⟨rfl, rfl, rfl, rfl, h.5, h.6, h.7, h.8, h.9⟩
    · split
      · exact ⟨rfl, rfl, rfl, rfl, h.5, h.6, h.7, h.8, h.9⟩
      · exact ⟨rfl, rfl, rfl, rfl, by simp [h.todo], h.6, h.7, h.8, h.9⟩
      · have h0 := untimed_nil h.todo
        by_cases hz : s.todo = []
        · rw [if_pos hz, if_pos (h0.1 hz)]
          exact ⟨rfl, rfl, rfl, rfl, h.5, h.6, h.7, h.8, h.9⟩
        · rw [if_neg hz, if_neg (fun e => hz (h0.2 e))]
          exact ⟨rfl, rfl, rfl, rfl, h.5, h.6, h.7, h.8, h.9⟩
  | susp d =>
    refine ⟨rfl, h.2, h.3, h.4, h.5, h.6, h.7, h.8, ?_⟩
    simp only [St.emit]
    rw [control_append, control_append, h.trace]
  | drainTop =>
    dsimp only
    have h0 := untimed_nil h.todo
    by_cases hz : s.todo = []
    · rw [if_pos hz, if_pos (h0.1 hz)]
      refine ⟨rfl, h.2, h.3, h.4, h.5, h.6, h.7, h.8, ?_⟩
      simp only [St.emit]
      rw [control_append, control_append, h.trace]
      simp [control, Event.control, h.erec]
    · rw [if_neg hz, if_neg (fun e => hz (h0.2 e))]
      exact ⟨rfl, h.2, h.3, h.4, h.5, h.6, h.7, h.8, h.9⟩
  | unwinding e => exact absurd hp (hu.1 e)
  | destroying => exact absurd hp hu.2
  | finished => exact ⟨rfl, h.2, h.3, h.4, h.5, h.6, h.7, h.8, h.9⟩
  | threw e => exact ⟨rfl, h.2, h.3, h.4, h.5, h.6, h.7, h.8, h.9⟩
  | destroyed => exact ⟨h.1, h.2, h.3, h.4, h.5, h.6, h.7, h.8, h.9⟩
  | ub => exact ⟨h.1, h.2, h.3, h.4, h.5, h.6, h.7, h.8, h.9⟩
  | abort => exact ⟨h.1, h.2, h.3, h.4, h.5, h.6, h.7, h.8, h.9⟩
  | outOfFuel => exact ⟨h.1, h.2, h.3, h.4, h.5, h.6, h.7, h.8, h.9⟩

/-- the execution can no longer finish normally -/
def Phase.lost : Phase → Bool
  | .unwinding _ | .threw _ | .destroying | .destroyed | .ub | .abort | .outOfFuel => true
  | _ => false

theorem lost_ctl {s : St} (h : s.phase.lost = true) (ok : Bool) : (ctlStep C s ok).phase.lost = true := by
  unfold ctlStep
  split
  all_goals first
    | (rename_i hp; rw [hp] at h; simp [Phase.lost] at h; done)
    | skip
  all_goals first
    | (split <;> first | rfl | exact h)
    | rfl
    | exact h

theorem lost_step {s : St} (h : s.phase.lost = true) (m : Move) : (step C s m).phase.lost = true := by
  cases m with
  | ctl => exact lost_ctl h true
  | ctlFail => exact lost_ctl h false
  | fault f =>
    show (faultStep C s f).phase.lost = true
    rcases fault_cases C s f with h' | ⟨_, _, _, _, _, _, _, h'⟩ | ⟨_, _, _, _, _, _, _, h'⟩ | ⟨_, _, h'⟩
    · rw [h']; exact lost_ctl h true
    all_goals rw [h']; rfl
  | begin n =>
    simp only [step]
    split
    · exact h
    · split <;> exact h
  | finish n =>
    simp only [step]
    split
    · exact h
    · split <;> exact h
  | destroy =>
    simp only [step, destroyStep]
    split
    · rfl
    · rfl
    · rfl
    · rfl
    · exact h

theorem lost_exec {ms : List Move} (h : (exec C ms).phase.lost = true) (ms' : List Move) :
    (exec C (ms ++ ms')).phase.lost = true := by
  induction ms' using List.reverseRecOn with
  | nil => simpa using h
  | append_singleton ms' m ih => rw [← List.append_assoc, exec_snoc]; exact lost_step ih m

/-- a portion in which `std::async` may fail -/
theorem ctlFail_kind (s : St) : (ctlStep C s false).phase.lost = true ∨
    ctlStep C s false = ctlStep C s true := by
  by_cases hp : ∃ d, s.phase = .clean d
  · obtain ⟨d, hp⟩ := hp
    unfold ctlStep
    rw [hp]
    dsimp only
    unfold cleanStep
    split
    · exact .inr rfl
    · split
      · unfold startRun
        dsimp only
        split
        · exact .inr rfl
        · split
          · exact .inr rfl
          · split
            · exact .inr rfl
            · split
              · exact .inr rfl
              · exact .inl rfl
      · exact .inr rfl
  · right
    unfold ctlStep
    cases h : s.phase
    case clean d => exact absurd ⟨d, h⟩ hp
    all_goals rfl

/-- a move prevents the execution from finishing, is an ordinary portion of the control thread, or does not
concern it -/
theorem step_kind (s : St) (m : Move) : (step C s m).phase.lost = true ∨
    step C s m = ctlStep C s true ∨ Abreast (step C s m) s := by
  cases m with
  | ctl => exact .inr (.inl rfl)
  | ctlFail =>
    rcases ctlFail_kind (C := C) s with h | h
    · exact .inl h
    · exact .inr (.inl h)
  | fault f =>
    show (faultStep C s f).phase.lost = true ∨ faultStep C s f = _ ∨ _
    rcases fault_cases C s f with h' | ⟨_, _, _, _, _, _, _, h'⟩ | ⟨_, _, _, _, _, _, _, h'⟩ | ⟨_, _, h'⟩
    · exact .inr (.inl h')
    all_goals exact .inl (by rw [h']; rfl)
  | begin n => exact .inr (.inr (abreast_worker (Abreast.rfl' s) n _ (.inl rfl)))
  | finish n => exact .inr (.inr (abreast_worker (Abreast.rfl' s) n _ (.inr rfl)))
  | destroy =>
    simp only [step, destroyStep]
    split
    · exact .inl rfl
    · exact .inl rfl
    · exact .inl rfl
    · exact .inl rfl
    · exact .inr (.inr (Abreast.rfl' s))

/-- `after_run` for `n` is not called before the `k`-th tick is over -/
def HeldBack (n : Node) (k : Nat) (s : St) : Prop :=
  (∀ p er r ref q, s.trace = p ++ Event.afterRun er r ref :: q → r.node = n → k < p.count .resumed) ∧
  (k < s.trace.count .resumed ∨ (k ≤ s.trace.count .resumed ∧
    (((∃ d, s.phase = .clean d) ∧ n ∈ s.kept.map Handle.node) ∨ s.phase = .pick ∨
      (∃ d, s.phase = .susp d) ∨ s.phase.lost = true)))

theorem kept_nodes {a b : List Handle} (h : a.map Handle.untimed = b.map Handle.untimed) :
    a.map Handle.node = b.map Handle.node := by
  have := congrArg (List.map Handle.node) h
  simpa [List.map_map, Function.comp_def, Handle.untimed] using this

theorem kept_not_todo {s : St} (hI : Inv C s) {n : Node} (hk : n ∈ s.kept.map Handle.node)
    {sl : Slot} (hs : sl ∈ s.todo) : sl.h.node ≠ n := by
  have h := hI.nodup
  unfold allNodes handles at h
  rw [List.map_append, List.append_assoc, List.append_assoc] at h
  rintro rfl
  refine List.disjoint_of_nodup_append h hk ?_
  exact List.mem_append_left _ (List.mem_map.2 ⟨_, List.mem_map.2 ⟨sl, hs, rfl⟩, rfl⟩)

theorem kept_clean {s : St} {d : Bool} (hp : s.phase = .clean d) {n : Node}
    (hk : n ∈ s.kept.map Handle.node) : ((∃ d', (cleanStep C s true d).phase = .clean d') ∧
      n ∈ (cleanStep C s true d).kept.map Handle.node) ∨ (cleanStep C s true d).phase = .pick ∨
      (∃ d', (cleanStep C s true d).phase = .susp d') ∨ (cleanStep C s true d).phase.lost = true := by
  have hcol : ∀ (s' : St) ref h rest, s'.phase = .clean d → s'.kept = s.kept →
      ((∃ d, (collect C s' ref h rest).phase = .clean d) ∧
        n ∈ (collect C s' ref h rest).kept.map Handle.node) ∨
      (collect C s' ref h rest).phase.lost = true := by
    intro s' ref h rest h1 h2
    unfold collect
    dsimp only
    split
    · exact .inr rfl
    · left
      simp only [complete, St.emit]
      split <;> exact ⟨⟨d, h1⟩, by rw [h2]; exact hk⟩
  unfold cleanStep
  split
  · cases d
    · exact .inr (.inl rfl)
    · exact .inr (.inr (.inl ⟨_, rfl⟩))
  · split
    · unfold startRun
      dsimp only
      split
      · exact .inr (.inr (.inr rfl))
      · split
        · exact .inl ⟨⟨d, hp⟩, hk⟩
        · split
          · exact .inl ⟨⟨d, hp⟩, hk⟩
          · split
            · exact (hcol _ _ _ _ (by exact hp) (by rfl)).imp id (fun h => .inr (.inr h))
            · rw [if_pos rfl]
              exact .inl ⟨⟨d, hp⟩, hk⟩
    · split
      · rcases hcol _ _ _ _ hp rfl with h | h
        · exact .inl h
        · exact .inr (.inr (.inr h))
      · exact .inl ⟨⟨d, hp⟩, by rw [List.map_append]; exact List.mem_append_left _ hk⟩

theorem heldBack_step (hwf : C.dag.WF) {s : St} (hI : Inv C s) {n : Node} {k : Nat} (h : HeldBack n k s)
    (m : Move) : HeldBack n k (step C s m) := by
  obtain ⟨evs, h1, h2⟩ := step_events hwf hI m
  have hcount : s.trace.count .resumed ≤ (step C s m).trace.count .resumed := by
    rw [h1, List.count_append]; omega
  constructor
  · intro p er r ref q hq hr
    rw [h1] at hq
    have hcase : (∃ a, p = s.trace ++ a ∧ evs = a ++ Event.afterRun er r ref :: q) ∨
        ∃ a, s.trace = p ++ Event.afterRun er r ref :: a := by
      rcases List.append_eq_append_iff.1 hq with ⟨a, ha, hb⟩ | ⟨a, ha, hb⟩
      · exact .inl ⟨a, ha, hb⟩
      · cases a with
        | nil => exact .inl ⟨[], by simpa using ha.symm, by simpa using hb.symm⟩
        | cons e a =>
          simp only [List.cons_append, List.cons.injEq] at hb
          exact .inr ⟨a, by rw [ha, hb.1]⟩
    rcases hcase with ⟨a, ha, hb⟩ | ⟨a, ha⟩
    · have hge : s.trace.count .resumed ≤ p.count .resumed := by rw [ha, List.count_append]; omega
      rcases h.2 with h3 | ⟨h3, h4⟩
      · omega
      · exfalso
        have hmem : Event.afterRun er r ref ∈ evs := by rw [hb]; simp
        have hph : ∃ d sl rest, s.phase = .clean d ∧ s.todo = sl :: rest ∧ r.node = sl.h.node := by
          cases h2 with
          | none => simp at hmem
          | begin => simp at hmem
          | «end» => simp at hmem
          | ctl _ post ph hE hpro =>
            have hmem' : Event.afterRun er r ref ∈ evs ++ post := List.mem_append_left _ hmem
            generalize evs ++ post = l at hE hmem'
            cases hE with
            | none => simp at hmem'
            | prologue _ hp _ =>
              rcases hpro hp _ hmem with h | h
              · cases h
              · simp [proEv] at h
            | tick => simp at hmem'
            | resumed => simp at hmem'
            | afterExecution => simp at hmem'
            | launch => simp at hmem'
            | asyncFailed => simp at hmem'
            | deferredUb => simp at hmem'
            | notRun d sl rest r' hp ht hl hr' =>
              simp at hmem'
              exact ⟨d, sl, rest, hp, ht, by rw [hmem'.2.1, hr']⟩
            | deferred d sl rest log r' hp ht hl h0 hr' =>
              simp at hmem'
              exact ⟨d, sl, rest, hp, ht, by rw [hmem'.2.1, hr']⟩
            | collect d sl rest log r' hp ht hl hw hr' =>
              simp at hmem'
              exact ⟨d, sl, rest, hp, ht, by rw [hmem'.2.1, hr']⟩
        obtain ⟨d, sl, rest, hp, ht, hn⟩ := hph
        rw [hp] at h4
        rcases h4 with ⟨_, h4⟩ | h4 | ⟨_, h4⟩ | h4
        · exact kept_not_todo hI h4 (sl := sl) (by rw [ht]; simp) (hn.symm.trans hr)
        · cases h4
        · cases h4
        · cases h4
    · exact h.1 p er r ref a ha hr
  · rcases h.2 with h3 | ⟨h3, h4⟩
    · left; omega
    · by_cases hl : s.phase.lost = true
      · exact .inr ⟨by omega, .inr (.inr (.inr (lost_step hl m)))⟩
      rcases step_kind (C := C) s m with h5 | h5 | h5
      · exact .inr ⟨by omega, .inr (.inr (.inr h5))⟩
      · rcases h4 with ⟨⟨d, h4⟩, h6⟩ | h4 | ⟨d, h4⟩ | h4
        · refine .inr ⟨by omega, ?_⟩
          rw [h5]
          unfold ctlStep
          rw [h4]
          exact kept_clean h4 h6
        · refine .inr ⟨by omega, ?_⟩
          rw [h5]
          unfold ctlStep
          rw [h4]
          dsimp only
          unfold pickStep
          split
          · exact .inr (.inr (.inl ⟨_, rfl⟩))
          · split
            · exact .inr (.inr (.inr rfl))
            · exact .inr (.inr (.inl ⟨_, rfl⟩))
            · split
              · exact .inr (.inr (.inr rfl))
              · exact .inr (.inr (.inl ⟨_, rfl⟩))
        · left
          rw [h5]
          unfold ctlStep
          rw [h4]
          simp only [St.emit, List.count_append]
          have : [Event.resumed].count Event.resumed = 1 := by simp
          omega
        · exact absurd h4 hl
      · refine .inr ⟨by omega, ?_⟩
        rw [h5.phase, kept_nodes h5.kept]
        exact h4

theorem heldBack_exec (hwf : C.dag.WF) {n : Node} {k : Nat} {ms : List Move} (h : HeldBack n k (exec C ms))
    (ms' : List Move) : HeldBack n k (exec C (ms ++ ms')) := by
  induction ms' using List.reverseRecOn with
  | nil => simpa using h
  | append_singleton ms' m ih =>
    rw [← List.append_assoc, exec_snoc]; exact heldBack_step hwf (inv_exec hwf _) ih m

end Joque
