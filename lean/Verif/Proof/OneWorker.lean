import Verif.Model.Exec
import Verif.Spec.Untimed
import Verif.Proof.ExecInv

/-! # One worker thread and none: simulation -/

namespace Joque

/-- the same configuration with `k` threads -/
def Cfg.withThreads (C : Cfg) (k : Nat) : Cfg := { C with threadCount := k }

theorem untimed_append (a b : List Event) : untimed (a ++ b) = untimed a ++ untimed b :=
  List.filterMap_append

theorem untimed_push {a b : ExecRecord} (h : a.untimed = b.untimed) {r q : RunRecord}
    (hr : r.untimed = q.untimed) : (a.push r).untimed = (b.push q).untimed := by
  obtain ⟨sa, ta, ra⟩ := a
  obtain ⟨sb, tb, rb⟩ := b
  have h1 : sa = sb ∧ ta = tb ∧ ra.map RunRecord.untimed = rb.map RunRecord.untimed := by
    unfold ExecRecord.untimed at h
    injection h with h1 h2 h3
    exact ⟨h1, h2, h3⟩
  have hs : r.status = q.status := by
    have hs' : r.untimed.status = q.untimed.status := by rw [hr]
    exact hs'
  unfold ExecRecord.untimed ExecRecord.push
  dsimp only
  rw [List.map_append, List.map_append, h1.1, h1.2.1, h1.2.2, hs]
  show _ = ExecRecord.mk _ _ (_ ++ [q.untimed])
  rw [← hr]
  rfl

/-- both executions are at the same point, no job is being executed -/
structure Twin (s0 s1 : St) : Prop where
  phase : s1.phase = s0.phase
  tp : s1.toProcess = s0.toProcess
  flags : s1.flags = s0.flags
  used : s1.used = s0.used
  todo : s1.todo = s0.todo
  kept0 : s0.kept = []
  kept1 : s1.kept = []
  passed : s1.passed = s0.passed
  erec : s1.erec.untimed = s0.erec.untimed
  trace : untimed s1.trace = untimed s0.trace
  worker : ∀ n, s1.worker n ≠ .queued ∧ s1.worker n ≠ .running
  shape : (s0.todo = [] ∧ (s0.passed = [] ∨ ∃ d, s0.phase = .clean d)) ∨
    (∃ r n, s0.todo = [⟨r, ⟨n, false, 0⟩⟩] ∧ s0.passed = [] ∧
      (s0.phase = .susp false ∨ s0.phase = .loopTop ∨ s0.phase = .drainTop ∨
        (∃ d, s0.phase = .clean d) ∨ s0.phase = .abort))
  drain : (∀ d, s0.phase = .clean d → (d = true ↔ s0.toProcess = [])) ∧
    (s0.phase = .drainTop → s0.toProcess = []) ∧ (s0.phase = .susp true → s0.toProcess = [])

/-- what the worker has done so far -/
def workEvents (n : Node) : Worker → List Event
  | .running => [.jobBegin n true]
  | .finished => [.jobBegin n true, .jobEnd n]
  | _ => []

/-- the single worker has the job of `n`; the sequential execution is about to run it -/
structure Flight (C : Cfg) (r n : Node) (d : Bool) (h : Handle) (s0 s1 : St) : Prop where
  p0 : s0.phase = .clean d
  todo0 : s0.todo = [⟨r, ⟨n, false, 0⟩⟩]
  kept0 : s0.kept = []
  passed0 : s0.passed = []
  drain : d = true ↔ s0.toProcess = []
  tp : s1.toProcess = s0.toProcess
  flags : s1.flags = { s0.flags with started := setFlag s0.flags.started n }
  used : s1.used = s0.used ++ C.resources n
  erec : s1.erec.untimed = s0.erec.untimed
  inval : s0.flags.inval n ≠ .unknown ∧ s0.flags.inval n ≠ .valid
  deps : ¬ anyDepFailed s0.flags (C.dag.outEdges n) = true
  trace : untimed s1.trace =
    untimed s0.trace ++ .beforeRun s0.erec.untimed n :: workEvents n (s1.worker n)
  worker : s1.worker n ≠ .idle
  others : ∀ m, m ≠ n → s1.worker m ≠ .queued ∧ s1.worker m ≠ .running
  node : h.node = n
  launched : h.launched = true
  pos : (s1.phase = .clean d ∧ s1.todo = [⟨r, h⟩] ∧ s1.kept = [] ∧ s1.passed = []) ∨
    (s1.phase = .clean d ∧ s1.todo = [] ∧ s1.kept = [h] ∧ s1.passed = [r]) ∨
    (((s1.phase = .pick ∧ d = false) ∨ s1.phase = .susp d ∨ (s1.phase = .loopTop ∧ d = false) ∨
        (s1.phase = .drainTop ∧ d = true)) ∧ s1.todo = [⟨r, h⟩] ∧ s1.kept = [] ∧ s1.passed = [])

/-- undefined behaviour in both -/
structure BothUb (s0 s1 : St) : Prop where
  p0 : s0.phase = .ub
  p1 : s1.phase = .ub
  erec : s1.erec.untimed = s0.erec.untimed
  trace : untimed s1.trace = untimed s0.trace

inductive Sim (C : Cfg) (s0 s1 : St) : Prop where
  | twin (h : Twin s0 s1)
  | flight (r n : Node) (d : Bool) (h : Handle) (hf : Flight C r n d h s0 s1)
  | ub (h : BothUb s0 s1)

/-- both are at the same point, or undefined behaviour in both -/
inductive Even (s0 s1 : St) : Prop where
  | twin (h : Twin s0 s1)
  | ub (h : BothUb s0 s1)

theorem Even.sim {C : Cfg} {s0 s1 : St} : Even s0 s1 → Sim C s0 s1
  | .twin h => .twin h
  | .ub h => .ub h

/-- a thread for the job of `n` was just made -/
def Launched (C : Cfg) (s0 s1 : St) : Prop :=
  ∃ r n d h, Flight C r n d h s0 s1 ∧ s1.phase = .clean d ∧ s1.todo = [⟨r, h⟩] ∧ s1.kept = [] ∧
    s1.passed = [] ∧ s1.worker n = .queued

theorem twin_prologue {C : Cfg} {t : Nat} {s0 s1 : St} (h : Twin s0 s1) (hp : s0.phase = .created) :
    Twin (prologue (C.withThreads 0) s0) (prologue (C.withThreads t) s1) := by
  have ht : s0.todo = [] ∧ s0.passed = [] := by
    rcases h.shape with ⟨h1, h2 | ⟨d, h2⟩⟩ | ⟨r, n, _, _, h3 | h3 | h3 | ⟨d, h3⟩ | h3⟩
    · exact ⟨h1, h2⟩
    all_goals (first | rw [hp] at h2 | rw [hp] at h3); first | cases h2 | cases h3
  have key : ∀ (p : Phase) (f : Flags) (tp : List Node) (er : ExecRecord) (ev : List Event),
      (∀ d, p ≠ .clean d) → p ≠ .drainTop → p ≠ .susp true →
      Twin { s0 with phase := p, flags := f, toProcess := tp, erec := er, trace := s0.trace ++ ev }
        { s1 with phase := p, flags := f, toProcess := tp, erec := er, trace := s1.trace ++ ev } := by
    intro p f tp er ev h1 h2 h3
    refine ⟨rfl, rfl, rfl, h.used, h.todo, h.kept0, h.kept1, h.passed, rfl, ?_, h.worker,
      .inl ⟨ht.1, .inl ht.2⟩, fun d hd => absurd hd (h1 d), fun hd => absurd hd h2,
      fun hd => absurd hd h3⟩
    show untimed (s1.trace ++ ev) = untimed (s0.trace ++ ev)
    rw [untimed_append, untimed_append, h.trace]
  unfold prologue
  dsimp only
  have e1 : (C.withThreads t).dag = C.dag := rfl
  have e0 : (C.withThreads 0).dag = C.dag := rfl
  have e2 : (C.withThreads t).hasJob = C.hasJob := rfl
  have e3 : (C.withThreads 0).hasJob = C.hasJob := rfl
  have e4 : (C.withThreads t).ask = C.ask := rfl
  have e5 : (C.withThreads 0).ask = C.ask := rfl
  rw [e0, e1, e2, e3, e4, e5, h.flags]
  have k0 : ∀ p ev, (∀ d, p ≠ .clean d) → p ≠ .drainTop → p ≠ .susp true →
      Twin { s0 with phase := p, toProcess := toProcessOf C.dag
                     erec := { ExecRecord.init with totalCount := (toProcessOf C.dag).length }
                     trace := s0.trace ++ ev }
        { s1 with phase := p, toProcess := toProcessOf C.dag, flags := s0.flags
                  erec := { ExecRecord.init with totalCount := (toProcessOf C.dag).length }
                  trace := s1.trace ++ ev } :=
    fun p ev h1 h2 h3 => key p s0.flags (toProcessOf C.dag)
      { ExecRecord.init with totalCount := (toProcessOf C.dag).length } ev h1 h2 h3
  generalize hasCycle C.dag (toProcessOf C.dag) = hc
  cases hc with
  | outOfFuel => exact k0 .outOfFuel _ (by intro d hd; cases hd) (by intro hd; cases hd) (by intro hd; cases hd)
  | assertFailed => exact k0 .abort _ (by intro d hd; cases hd) (by intro hd; cases hd) (by intro hd; cases hd)
  | result b reps =>
    cases b with
    | true =>
      simp only [List.append_assoc]
      exact k0 (.unwinding .cycle) _ (by intro d hd; cases hd) (by intro hd; cases hd) (by intro hd; cases hd)
    | false =>
      dsimp only
      generalize propagateInvalidation C.dag C.hasJob C.ask (toProcessOf C.dag) s0.flags.inval = a
      cases a with
      | outOfFuel =>
        simp only [List.append_assoc]
        exact k0 .outOfFuel _ (by intro d hd; cases hd) (by intro hd; cases hd) (by intro hd; cases hd)
      | assertFailed =>
        simp only [List.append_assoc]
        exact k0 .abort _ (by intro d hd; cases hd) (by intro hd; cases hd) (by intro hd; cases hd)
      | ub ev =>
        simp only [List.append_assoc]
        exact k0 .ub _ (by intro d hd; cases hd) (by intro hd; cases hd) (by intro hd; cases hd)
      | threw w ev =>
        simp only [List.append_assoc]
        exact k0 (.unwinding (.inval w)) _ (by intro d hd; cases hd) (by intro hd; cases hd) (by intro hd; cases hd)
      | ok p =>
        simp only [List.append_assoc]
        exact key .loopTop { s0.flags with inval := p.inval } _ _ _
          (by intro d hd; cases hd) (by intro hd; cases hd) (by intro hd; cases hd)

/-- the end of a task in both -/
theorem twin_complete {s0 s1 : St} {d : Bool} {tp : List Node} (r : Node) {q0 q1 : RunRecord}
    (hp0 : s0.phase = .clean d) (hp1 : s1.phase = .clean d) (hd : d = true ↔ tp = [])
    (ht0 : s0.toProcess = tp) (ht1 : s1.toProcess = tp) (hf : s1.flags = s0.flags)
    (hu : s1.used = s0.used) (hk0 : s0.kept = []) (hk1 : s1.kept = []) (hs0 : s0.passed = [])
    (hs1 : s1.passed = []) (he : s1.erec.untimed = s0.erec.untimed)
    (htr : untimed s1.trace = untimed s0.trace)
    (hw : ∀ n, s1.worker n ≠ .queued ∧ s1.worker n ≠ .running) (hq : q1.untimed = q0.untimed) :
    Twin (complete s0 r [] q0) (complete s1 r [] q1) := by
  refine ⟨?_, ?_, hf, hu, rfl, hk0, hk1, ?_, ?_, ?_, hw, ?_, ?_⟩
  · show s1.phase = s0.phase; rw [hp0, hp1]
  · show s1.toProcess = s0.toProcess; rw [ht0, ht1]
  · show s1.passed ++ [r] = s0.passed ++ [r]; rw [hs0, hs1]
  · exact untimed_push he hq
  · show untimed (s1.trace ++ [.afterRun s1.erec q1 r]) = untimed (s0.trace ++ [.afterRun s0.erec q0 r])
    rw [untimed_append, untimed_append, htr]
    show _ ++ [Event.afterRun s1.erec.untimed q1.untimed r] =
      _ ++ [Event.afterRun s0.erec.untimed q0.untimed r]
    rw [he, hq]
  · exact .inl ⟨rfl, .inr ⟨d, hp0⟩⟩
  · refine ⟨fun d' hd' => ?_, fun hc => ?_, fun hc => ?_⟩
    · have e : s0.phase = .clean d' := hd'
      rw [hp0] at e
      cases e
      show d = true ↔ s0.toProcess = []
      rw [ht0]; exact hd
    · have e : s0.phase = .drainTop := hc
      rw [hp0] at e; cases e
    · have e : s0.phase = .susp true := hc
      rw [hp0] at e; cases e

theorem collect_twin {C : Cfg} {t : Nat} {s0 s1 : St} {d : Bool} {tp : List Node} (r : Node) {h0 h1 : Handle}
    (hn : h1.node = h0.node)
    (hp0 : s0.phase = .clean d) (hp1 : s1.phase = .clean d) (hd : d = true ↔ tp = [])
    (ht0 : s0.toProcess = tp) (ht1 : s1.toProcess = tp) (hf : s1.flags = s0.flags)
    (hu : s1.used = s0.used) (hk0 : s0.kept = []) (hk1 : s1.kept = []) (hs0 : s0.passed = [])
    (hs1 : s1.passed = []) (he : s1.erec.untimed = s0.erec.untimed)
    (htr : untimed s1.trace = untimed s0.trace)
    (hw : ∀ n, s1.worker n ≠ .queued ∧ s1.worker n ≠ .running) :
    Even (collect (C.withThreads 0) s0 r h0 []) (collect (C.withThreads t) s1 r h1 []) := by
  unfold collect
  dsimp only
  have e1 : (C.withThreads t).dag = C.dag := rfl
  have e0 : (C.withThreads 0).dag = C.dag := rfl
  have e2 : (C.withThreads t).resources = C.resources := rfl
  have e3 : (C.withThreads 0).resources = C.resources := rfl
  have e4 : (C.withThreads t).outcome = C.outcome := rfl
  have e5 : (C.withThreads 0).outcome = C.outcome := rfl
  rw [e0, e1, e2, e3, e4, e5, hn]
  generalize asyncLambda (C.outcome h0.node) = rr
  obtain ⟨rc, out, lg⟩ := rr
  cases rc with
  | none => exact .ub ⟨rfl, rfl, he, htr⟩
  | some rc =>
    have hlog : untimed (s1.trace ++ [.runLog h0.node lg]) = untimed (s0.trace ++ [.runLog h0.node lg]) := by
      rw [untimed_append, untimed_append, htr]
    dsimp only
    by_cases hz : rc ≠ 0
    · rw [if_pos hz, if_pos hz, if_pos hz]
      refine .twin (twin_complete (d := d) (tp := tp) r hp0 hp1 hd ht0 ht1 ?_ ?_ hk0 hk1 hs0 hs1 he hlog hw rfl)
      · show Flags.mk _ _ _ _ = Flags.mk _ _ _ _
        dsimp only [St.emit]
        rw [hf]
      · dsimp only [St.emit]
        rw [hu]
    · rw [if_neg hz, if_neg hz, if_neg hz]
      refine .twin (twin_complete (d := d) (tp := tp) r hp0 hp1 hd ht0 ht1 ?_ ?_ hk0 hk1 hs0 hs1 he hlog hw rfl)
      · dsimp only [St.emit]
        rw [hf]
      · dsimp only [St.emit]
        rw [hu]

theorem startRun_abort (C : Cfg) (s : St) (ok : Bool) (r : Node) (h : Handle) (rest : List Slot)
    (hi : s.flags.inval h.node = .unknown) :
    startRun C s ok r h rest = { s with phase := .abort } := if_pos hi

theorem startRun_depf (C : Cfg) (s : St) (ok : Bool) (r : Node) (h : Handle) (rest : List Slot)
    (hi : ¬ s.flags.inval h.node = .unknown)
    (ha : anyDepFailed s.flags (C.dag.outEdges h.node) = true) :
    startRun C s ok r h rest =
      complete { s with
          flags := { s.flags with done := setFlag s.flags.done h.node
                                  failed := setFlag s.flags.failed h.node }
          trace := s.trace ++ [.beforeRun s.erec h.node] } r rest
        { node := h.node, t := C.dag.task h.node, name := C.dag.name h.node, status := .depf
          retcode := 0, start := s.now, «end» := s.now, output := [] } :=
  (if_neg hi).trans (if_pos ha)

theorem startRun_skip (C : Cfg) (s : St) (ok : Bool) (r : Node) (h : Handle) (rest : List Slot)
    (hi : ¬ s.flags.inval h.node = .unknown)
    (ha : ¬ anyDepFailed s.flags (C.dag.outEdges h.node) = true)
    (hv : s.flags.inval h.node = .valid) :
    startRun C s ok r h rest =
      complete { s with
          flags := { s.flags with done := setFlag s.flags.done h.node }
          trace := s.trace ++ [.beforeRun s.erec h.node] } r rest
        { node := h.node, t := C.dag.task h.node, name := C.dag.name h.node, status := .skip
          retcode := 0, start := s.now, «end» := s.now, output := [] } :=
  (if_neg hi).trans ((if_neg ha).trans (if_pos hv))

theorem startRun_seq (C : Cfg) (s : St) (ok : Bool) (r : Node) (h : Handle) (rest : List Slot)
    (hi : ¬ s.flags.inval h.node = .unknown)
    (ha : ¬ anyDepFailed s.flags (C.dag.outEdges h.node) = true)
    (hv : ¬ s.flags.inval h.node = .valid) (hc : C.threadCount = 0) :
    startRun C s ok r h rest =
      collect C { s with
          flags := { s.flags with started := setFlag s.flags.started h.node }
          used := s.used ++ C.resources h.node
          trace := s.trace ++ [.beforeRun s.erec h.node] ++ [.jobBegin h.node true] ++ [.jobEnd h.node] } r
        { h with launched := true, start := s.now } rest :=
  (if_neg hi).trans ((if_neg ha).trans ((if_neg hv).trans (if_pos hc)))

theorem startRun_launch (C : Cfg) (s : St) (r : Node) (h : Handle) (rest : List Slot)
    (hi : ¬ s.flags.inval h.node = .unknown)
    (ha : ¬ anyDepFailed s.flags (C.dag.outEdges h.node) = true)
    (hv : ¬ s.flags.inval h.node = .valid) (hc : ¬ C.threadCount = 0) :
    startRun C s true r h rest =
      { s with
        flags := { s.flags with started := setFlag s.flags.started h.node }
        used := s.used ++ C.resources h.node
        trace := s.trace ++ [.beforeRun s.erec h.node] ++ [.launch h.node]
        worker := setWorker s.worker h.node .queued
        todo := ⟨r, { h with launched := true, start := s.now }⟩ :: rest } :=
  (if_neg hi).trans ((if_neg ha).trans ((if_neg hv).trans ((if_neg hc).trans (if_pos rfl))))

/-- the control thread of both at the start of a task -/
theorem twin_start {C : Cfg} {t : Nat} (h0 : t ≠ 0) {s0 s1 : St} (h : Twin s0 s1) {d : Bool} (hp : s0.phase = .clean d)
    {r n : Node} (ht : s0.todo = [⟨r, ⟨n, false, 0⟩⟩]) (hs : s0.passed = []) :
    Even (startRun (C.withThreads 0) s0 true r ⟨n, false, 0⟩ [])
        (startRun (C.withThreads t) s1 true r ⟨n, false, 0⟩ []) ∨
      Launched C s0 (startRun (C.withThreads t) s1 true r ⟨n, false, 0⟩ []) := by
  have hp1 : s1.phase = .clean d := by rw [h.phase, hp]
  have hdr := h.drain.1 d hp
  have hs1 : s1.passed = [] := by rw [h.passed, hs]
  have hbef : untimed (s1.trace ++ [.beforeRun s1.erec n]) = untimed (s0.trace ++ [.beforeRun s0.erec n]) := by
    rw [untimed_append, untimed_append, h.trace]
    show _ ++ [Event.beforeRun s1.erec.untimed n] = _ ++ [Event.beforeRun s0.erec.untimed n]
    rw [h.erec]
  have hfl := h.flags
  by_cases hi : s0.flags.inval n = .unknown
  · rw [startRun_abort _ s0 _ _ _ _ hi, startRun_abort _ s1 _ _ _ _ (by rw [hfl]; exact hi)]
    refine .inl (.twin ⟨rfl, h.tp, h.flags, h.used, h.todo, h.kept0, h.kept1, h.passed, h.erec,
      h.trace, h.worker, .inr ⟨r, n, ht, hs, .inr (.inr (.inr (.inr rfl)))⟩, ?_⟩)
    refine ⟨fun d hd => ?_, fun hd => ?_, fun hd => ?_⟩ <;> cases hd
  by_cases ha : anyDepFailed s0.flags (C.dag.outEdges n) = true
  · rw [startRun_depf _ s0 _ _ _ _ hi ha,
      startRun_depf _ s1 _ _ _ _ (by rw [hfl]; exact hi) (by rw [hfl]; exact ha)]
    refine .inl (.twin (twin_complete (d := d) (tp := s0.toProcess) r hp hp1 hdr rfl h.tp ?_ h.used
      h.kept0 h.kept1 hs hs1 h.erec hbef h.worker rfl))
    dsimp only
    rw [hfl]
  by_cases hv : s0.flags.inval n = .valid
  · rw [startRun_skip _ s0 _ _ _ _ hi ha hv,
      startRun_skip _ s1 _ _ _ _ (by rw [hfl]; exact hi) (by rw [hfl]; exact ha) (by rw [hfl]; exact hv)]
    refine .inl (.twin (twin_complete (d := d) (tp := s0.toProcess) r hp hp1 hdr rfl h.tp ?_ h.used
      h.kept0 h.kept1 hs hs1 h.erec hbef h.worker rfl))
    dsimp only
    rw [hfl]
  rw [startRun_launch _ s1 _ _ _ (by rw [hfl]; exact hi) (by rw [hfl]; exact ha) (by rw [hfl]; exact hv)
    h0]
  right
  refine ⟨r, n, d, ⟨n, true, s1.now⟩, ⟨hp, ht, h.kept0, hs, hdr, h.tp, ?_, ?_, h.erec, ⟨hi, hv⟩,
    ha, ?_, ?_, ?_, rfl, rfl, .inl ⟨hp1, rfl, h.kept1, hs1⟩⟩, hp1, rfl, h.kept1, hs1, if_pos rfl⟩
  · dsimp only
    rw [hfl]
  · show s1.used ++ _ = _
    rw [h.used]
    rfl
  · show untimed ((s1.trace ++ [.beforeRun s1.erec n]) ++ [.launch n]) =
      untimed s0.trace ++ .beforeRun s0.erec.untimed n :: workEvents n (setWorker s1.worker n .queued n)
    rw [untimed_append, hbef, untimed_append, setWorker, if_pos rfl, List.append_assoc]
    rfl
  · show setWorker s1.worker n .queued n ≠ .idle
    rw [setWorker, if_pos rfl]
    intro hc; cases hc
  · intro m hm
    show setWorker s1.worker n .queued m ≠ .queued ∧ setWorker s1.worker n .queued m ≠ .running
    rw [setWorker, if_neg hm]
    exact h.worker m

theorem pickStep_empty {C : Cfg} {s : St} (ht : s.todo = []) :
    pickStep C s =
      match findCandidate C.dag C.resources s.flags s.used s.toProcess with
      | none => { s with phase := .outOfFuel }
      | some (some n) =>
        { s with toProcess := serase n s.toProcess, todo := [⟨n, ⟨n, false, 0⟩⟩], phase := .susp false }
      | some none => { s with phase := .abort } := by
  unfold pickStep
  rw [if_neg (by rw [ht]; exact fun hc => hc.2 (Nat.le_zero.mp hc.1))]
  generalize findCandidate C.dag C.resources s.flags s.used s.toProcess = fc
  rcases fc with _ | _ | n
  · rfl
  · exact if_pos ht
  · show { s with toProcess := serase n s.toProcess, todo := s.todo ++ [(⟨n, ⟨n, false, 0⟩⟩ : Slot)]
                  phase := .susp false } = _
    rw [ht]
    rfl

/-- one portion of the control thread when no job is being executed -/
theorem twin_ctl {C : Cfg} {t : Nat} (h0 : t ≠ 0) {s0 s1 : St} (h : Twin s0 s1) :
    Even (ctlStep (C.withThreads 0) s0 true) (ctlStep (C.withThreads t) s1 true) ∨
      Launched C s0 (ctlStep (C.withThreads t) s1 true) := by
  have hph := h.phase
  -- a state that differs in the phase only, and in what was emitted
  have go : ∀ (p : Phase) (ev0 ev1 : List Event), untimed ev1 = untimed ev0 →
      ((s0.todo = [] ∧ s0.passed = []) ∨
        (∃ r n, s0.todo = [⟨r, ⟨n, false, 0⟩⟩] ∧ s0.passed = [] ∧
          (p = .susp false ∨ p = .loopTop ∨ p = .drainTop ∨ (∃ d, p = .clean d) ∨ p = .abort))) →
      ((∀ d, p = .clean d → (d = true ↔ s0.toProcess = [])) ∧
        (p = .drainTop → s0.toProcess = []) ∧ (p = .susp true → s0.toProcess = [])) →
      Even { s0 with phase := p, trace := s0.trace ++ ev0 } { s1 with phase := p, trace := s1.trace ++ ev1 } := by
    intro p ev0 ev1 hev hsh hdr
    refine .twin ⟨rfl, h.tp, h.flags, h.used, h.todo, h.kept0, h.kept1, h.passed, h.erec, ?_,
      h.worker, ?_, hdr⟩
    · show untimed (s1.trace ++ ev1) = untimed (s0.trace ++ ev0)
      rw [untimed_append, untimed_append, h.trace, hev]
    · rcases hsh with ⟨h1, h2⟩ | h1
      · exact .inl ⟨h1, .inl h2⟩
      · exact .inr h1
  have go' : ∀ (p : Phase),
      ((s0.todo = [] ∧ s0.passed = []) ∨
        (∃ r n, s0.todo = [⟨r, ⟨n, false, 0⟩⟩] ∧ s0.passed = [] ∧
          (p = .susp false ∨ p = .loopTop ∨ p = .drainTop ∨ (∃ d, p = .clean d) ∨ p = .abort))) →
      ((∀ d, p = .clean d → (d = true ↔ s0.toProcess = [])) ∧
        (p = .drainTop → s0.toProcess = []) ∧ (p = .susp true → s0.toProcess = [])) →
      Even { s0 with phase := p } { s1 with phase := p } := by
    intro p hsh hdr
    have := go p [] [] rfl hsh hdr
    rw [List.append_nil, List.append_nil] at this
    exact this
  have shp : (∀ d, s0.phase ≠ .clean d) → (s0.todo = [] ∧ s0.passed = []) ∨
      (∃ r n, s0.todo = [⟨r, ⟨n, false, 0⟩⟩] ∧ s0.passed = [] ∧
        (s0.phase = .susp false ∨ s0.phase = .loopTop ∨ s0.phase = .drainTop ∨ s0.phase = .abort)) := by
    intro hc
    rcases h.shape with ⟨h1, h2 | ⟨d, h2⟩⟩ | ⟨r, n, h1, h2, h3 | h3 | h3 | ⟨d, h3⟩ | h3⟩
    · exact .inl ⟨h1, h2⟩
    · exact absurd h2 (hc d)
    · exact .inr ⟨r, n, h1, h2, .inl h3⟩
    · exact .inr ⟨r, n, h1, h2, .inr (.inl h3)⟩
    · exact .inr ⟨r, n, h1, h2, .inr (.inr (.inl h3))⟩
    · exact absurd h3 (hc d)
    · exact .inr ⟨r, n, h1, h2, .inr (.inr (.inr h3))⟩
  unfold ctlStep
  rw [hph]
  cases hp : s0.phase with
  | created => exact .inl (.twin (twin_prologue h hp))
  | loopTop =>
    have hs := shp (by intro d hd; rw [hp] at hd; cases hd)
    dsimp only
    by_cases ht : s0.toProcess = []
    · rw [if_pos ht, if_pos (h.tp.trans ht)]
      refine .inl (go' .drainTop ?_ ⟨fun d hd => ?_, fun _ => ht, fun hd => ?_⟩)
      · rcases hs with hs | ⟨r, n, h1, h2, _⟩
        · exact .inl hs
        · exact .inr ⟨r, n, h1, h2, .inr (.inr (.inl rfl))⟩
      · cases hd
      · cases hd
    · rw [if_neg ht, if_neg (fun hc => ht (h.tp.symm.trans hc))]
      refine .inl (go (.clean false) _ _ rfl ?_ ⟨fun d hd => ?_, fun hd => ?_, fun hd => ?_⟩)
      · rcases hs with hs | ⟨r, n, h1, h2, _⟩
        · exact .inl hs
        · exact .inr ⟨r, n, h1, h2, .inr (.inr (.inr (.inl ⟨_, rfl⟩)))⟩
      · cases hd
        exact ⟨fun hc => (by cases hc), fun hc => absurd hc ht⟩
      · cases hd
      · cases hd
  | clean d =>
    dsimp only
    unfold cleanStep
    rw [h.todo]
    rcases h.shape with ⟨h1, _⟩ | ⟨r, n, h1, h2, _⟩
    · rw [h1]
      dsimp only
      rw [h.kept0, h.kept1, h.passed, List.zipWith_nil_right]
      have hdr := h.drain.1 d hp
      refine .inl (.twin ⟨rfl, h.tp, h.flags, h.used, rfl, rfl, rfl, rfl, h.erec, h.trace,
        h.worker, .inl ⟨rfl, .inl rfl⟩, ?_⟩)
      cases d
      · refine ⟨fun d hd => ?_, fun hd => ?_, fun hd => ?_⟩ <;> cases hd
      · refine ⟨fun d hd => ?_, fun hd => ?_, fun _ => hdr.mp rfl⟩ <;> cases hd
    · rw [h1]
      exact twin_start h0 h hp h1 h2
  | pick =>
    have hs := shp (by intro d hd; rw [hp] at hd; cases hd)
    have ht : s0.todo = [] ∧ s0.passed = [] := by
      rcases hs with hs | ⟨r, n, _, _, h3 | h3 | h3 | h3⟩
      · exact hs
      all_goals (rw [hp] at h3; cases h3)
    dsimp only
    have e1 : (C.withThreads t).dag = C.dag := rfl
    have e0 : (C.withThreads 0).dag = C.dag := rfl
    have e4 : (C.withThreads t).resources = C.resources := rfl
    have e5 : (C.withThreads 0).resources = C.resources := rfl
    rw [pickStep_empty ht.1, pickStep_empty (h.todo.trans ht.1), e0, e1, e4, e5]
    have ef : findCandidate C.dag C.resources s1.flags s1.used s1.toProcess =
        findCandidate C.dag C.resources s0.flags s0.used s0.toProcess := by
      rw [h.flags, h.used, h.tp]
    rw [ef]
    generalize findCandidate C.dag C.resources s0.flags s0.used s0.toProcess = fc
    rcases fc with _ | _ | n
    · refine .inl (go' .outOfFuel (.inl ht) ⟨fun d hd => ?_, fun hd => ?_, fun hd => ?_⟩) <;> cases hd
    · refine .inl (go' .abort (.inl ht) ⟨fun d hd => ?_, fun hd => ?_, fun hd => ?_⟩) <;> cases hd
    · refine .inl (.twin ⟨rfl, ?_, h.flags, h.used, rfl, h.kept0, h.kept1, h.passed, h.erec,
        h.trace, h.worker, .inr ⟨n, n, rfl, ht.2, .inl rfl⟩, ?_⟩)
      · show serase n s1.toProcess = serase n s0.toProcess
        rw [h.tp]
      refine ⟨fun d hd => ?_, fun hd => ?_, fun hd => ?_⟩ <;> cases hd
  | susp d =>
    have hs := shp (by intro d hd; rw [hp] at hd; cases hd)
    dsimp only
    refine .inl (go (if d then .drainTop else .loopTop) [.resumed] [.resumed] rfl ?_ ?_)
    · rcases hs with hs | ⟨r, n, h1, h2, _⟩
      · exact .inl hs
      · refine .inr ⟨r, n, h1, h2, ?_⟩
        cases d
        · exact .inr (.inl rfl)
        · exact .inr (.inr (.inl rfl))
    · cases d
      · refine ⟨fun d hd => ?_, fun hd => ?_, fun hd => ?_⟩ <;> cases hd
      · refine ⟨fun d hd => ?_, fun _ => h.drain.2.2 hp, fun hd => ?_⟩ <;> cases hd
  | drainTop =>
    have hs := shp (by intro d hd; rw [hp] at hd; cases hd)
    have htp := h.drain.2.1 hp
    dsimp only
    rcases hs with hs | ⟨r, n, h1, h2, _⟩
    · rw [if_pos hs.1, if_pos (h.todo.trans hs.1)]
      refine .inl (go .finished [.afterExecution s0.erec] [.afterExecution s1.erec] ?_ (.inl hs)
        ⟨fun d hd => ?_, fun hd => ?_, fun hd => ?_⟩)
      · show [Event.afterExecution s1.erec.untimed] = [Event.afterExecution s0.erec.untimed]
        rw [h.erec]
      all_goals cases hd
    · rw [if_neg (by rw [h1]; exact List.cons_ne_nil _ _), if_neg (by rw [h.todo, h1]; exact List.cons_ne_nil _ _)]
      refine .inl (go' (.clean true) (.inr ⟨r, n, h1, h2, .inr (.inr (.inr (.inl ⟨_, rfl⟩)))⟩)
        ⟨fun d hd => ?_, fun hd => ?_, fun hd => ?_⟩)
      · cases hd
        exact ⟨fun _ => htp, fun _ => rfl⟩
      · cases hd
      · cases hd
  | unwinding e =>
    have hs := shp (by intro d hd; rw [hp] at hd; cases hd)
    have ht : s0.todo = [] ∧ s0.passed = [] := by
      rcases hs with hs | ⟨r, n, _, _, h3 | h3 | h3 | h3⟩
      · exact hs
      all_goals (rw [hp] at h3; cases h3)
    have j0 : joinable s0 = true := by unfold joinable; rw [h.kept0, ht.1]; rfl
    have j1 : joinable s1 = true := by unfold joinable; rw [h.kept1, h.todo, ht.1]; rfl
    dsimp only
    rw [if_pos j0, if_pos j1]
    refine .inl (go' (.threw e) (.inl ht) ⟨fun d hd => ?_, fun hd => ?_, fun hd => ?_⟩) <;> cases hd
  | destroying =>
    have hs := shp (by intro d hd; rw [hp] at hd; cases hd)
    have ht : s0.todo = [] ∧ s0.passed = [] := by
      rcases hs with hs | ⟨r, n, _, _, h3 | h3 | h3 | h3⟩
      · exact hs
      all_goals (rw [hp] at h3; cases h3)
    have j0 : joinable s0 = true := by unfold joinable; rw [h.kept0, ht.1]; rfl
    have j1 : joinable s1 = true := by unfold joinable; rw [h.kept1, h.todo, ht.1]; rfl
    dsimp only
    rw [if_pos j0, if_pos j1]
    refine .inl (go' .destroyed (.inl ht) ⟨fun d hd => ?_, fun hd => ?_, fun hd => ?_⟩) <;> cases hd
  | finished => exact .inl (.ub ⟨rfl, rfl, h.erec, h.trace⟩)
  | threw e => exact .inl (.ub ⟨rfl, rfl, h.erec, h.trace⟩)
  | destroyed => exact .inl (.twin h)
  | ub => exact .inl (.twin h)
  | abort => exact .inl (.twin h)
  | outOfFuel => exact .inl (.twin h)

/-- the control thread takes the result of a job that was executed as soon as its thread was made -/
theorem flight_collect {C : Cfg} {t : Nat} {s0 s1 : St} {r n : Node} {d : Bool} {h : Handle}
    (hf : Flight C r n d h s0 s1) (hp : s1.phase = .clean d) (ht : s1.todo = [⟨r, h⟩])
    (hk : s1.kept = []) (hs : s1.passed = []) (hw : s1.worker n = .finished) :
    Even (ctlStep (C.withThreads 0) s0 true) (ctlStep (C.withThreads t) s1 true) := by
  have e1 : ctlStep (C.withThreads t) s1 true = cleanStep (C.withThreads t) s1 true d := by
    unfold ctlStep; rw [hp]
  have e0 : ctlStep (C.withThreads 0) s0 true =
      startRun (C.withThreads 0) s0 true r ⟨n, false, 0⟩ [] := by
    unfold ctlStep; rw [hf.p0]
    show cleanStep _ s0 true d = _
    unfold cleanStep; rw [hf.todo0]; rfl
  rw [e1, e0]
  unfold cleanStep
  rw [ht]
  dsimp only
  rw [hf.launched, hf.node, if_neg (by decide : ¬ (!true) = true), if_pos hw,
    startRun_seq _ s0 _ _ _ _ hf.inval.1 hf.deps hf.inval.2 rfl]
  refine collect_twin (d := d) (tp := s0.toProcess) r hf.node hf.p0 hp hf.drain rfl hf.tp hf.flags
    hf.used hf.kept0 hk hf.passed0 hs hf.erec ?_ ?_
  · show untimed s1.trace = untimed (((s0.trace ++ [.beforeRun s0.erec n]) ++ [.jobBegin n true]) ++ [.jobEnd n])
    rw [hf.trace, hw, untimed_append, untimed_append, untimed_append, List.append_assoc,
      List.append_assoc]
    rfl
  · intro m
    by_cases hm : m = n
    · rw [hm, hw]; exact ⟨by decide, by decide⟩
    · exact hf.others m hm

/-- one portion of the control thread while the worker has a job -/
theorem flight_ctl {C : Cfg} {s0 s1 : St} {r n : Node} {d : Bool} {h : Handle}
    (hf : Flight C r n d h s0 s1) :
    Sim C (ctlStep (C.withThreads 0) s0 true) (ctlStep (C.withThreads 1) s1 true) ∨
      Sim C s0 (ctlStep (C.withThreads 1) s1 true) := by
  rcases hf.pos with ⟨hp, ht, hk, hs⟩ | ⟨hp, ht, hk, hs⟩ | ⟨hp, ht, hk, hs⟩
  · by_cases hw : s1.worker n = .finished
    · exact .inl (flight_collect hf hp ht hk hs hw).sim
    · have e1 : ctlStep (C.withThreads 1) s1 true = cleanStep (C.withThreads 1) s1 true d := by
        unfold ctlStep; rw [hp]
      rw [e1]
      unfold cleanStep
      rw [ht]
      dsimp only
      rw [hf.launched, hf.node, if_neg (by decide : ¬ (!true) = true), if_neg hw]
      refine .inr (.flight r n d h { hf with pos := .inr (.inl ⟨hp, rfl, ?_, ?_⟩) })
      · show s1.kept ++ [h] = [h]; rw [hk]; rfl
      · show s1.passed ++ [r] = [r]; rw [hs]; rfl
  · have e1 : ctlStep (C.withThreads 1) s1 true = cleanStep (C.withThreads 1) s1 true d := by
      unfold ctlStep; rw [hp]
    rw [e1]
    unfold cleanStep
    rw [ht, hk, hs]
    refine .inr (.flight r n d h { hf with pos := .inr (.inr ⟨?_, rfl, rfl, rfl⟩) })
    cases d
    · exact .inl ⟨rfl, rfl⟩
    · exact .inr (.inl rfl)
  · right
    unfold ctlStep
    rcases hp with ⟨hp, rfl⟩ | hp | ⟨hp, rfl⟩ | ⟨hp, rfl⟩
    · rw [hp]
      show Sim C s0 (pickStep _ s1)
      unfold pickStep
      rw [if_pos (by rw [ht]; exact ⟨Nat.le_refl 1, Nat.one_ne_zero⟩)]
      exact .flight r n false h { hf with pos := .inr (.inr ⟨.inr (.inl rfl), ht, hk, hs⟩) }
    · rw [hp]
      refine .flight r n d h { hf with trace := ?_, pos := .inr (.inr ⟨?_, ht, hk, hs⟩) }
      · show untimed (s1.trace ++ [.resumed]) = _
        rw [untimed_append]
        exact (List.append_nil _).trans hf.trace
      · cases d
        · exact .inr (.inr (.inl ⟨rfl, rfl⟩))
        · exact .inr (.inr (.inr ⟨rfl, rfl⟩))
    · rw [hp]
      have hne : ¬ s1.toProcess = [] := by
        rw [hf.tp]
        intro hc
        exact absurd (hf.drain.mpr hc) (by decide)
      dsimp only
      rw [if_neg hne]
      refine .flight r n false h { hf with trace := ?_, pos := .inl ⟨rfl, ht, hk, hs⟩ }
      show untimed (s1.trace ++ [.onTick s1.erec]) = _
      rw [untimed_append]
      exact (List.append_nil _).trans hf.trace
    · rw [hp]
      dsimp only
      rw [if_neg (by rw [ht]; exact List.cons_ne_nil _ _)]
      exact .flight r n true h { hf with pos := .inl ⟨rfl, ht, hk, hs⟩ }

theorem flight_alive {C : Cfg} {s0 s1 : St} {r n : Node} {d : Bool} {h : Handle}
    (hf : Flight C r n d h s0 s1) : s1.phase.dead = false := by
  rcases hf.pos with ⟨hp, _⟩ | ⟨hp, _⟩ | ⟨⟨hp, _⟩ | hp | ⟨hp, _⟩ | ⟨hp, _⟩, _⟩ <;> (rw [hp]; rfl)

/-- moves of a run in which nothing fails and which is not abandoned -/
def Move.regular : Move → Bool
  | .ctl | .begin _ | .finish _ => true
  | _ => false

/-- a thread begins its job -/
theorem flight_begin {C : Cfg} {t : Nat} {s0 s1 : St} {r n : Node} {d : Bool} {h : Handle}
    (hf : Flight C r n d h s0 s1) (k : Node) : Flight C r n d h s0 (step (C.withThreads t) s1 (.begin k)) := by
  unfold step
  dsimp only
  rw [if_neg (by rw [flight_alive hf]; exact Bool.false_ne_true)]
  by_cases hw : s1.worker k = .queued
  · have hk : k = n := Classical.byContradiction fun hk => (hf.others k hk).1 hw
    subst hk
    rw [if_pos hw]
    refine { hf with trace := ?_, worker := ?_, others := ?_ }
    · show untimed (s1.trace ++ [.jobBegin k false]) =
        untimed s0.trace ++ .beforeRun s0.erec.untimed k :: workEvents k (setWorker s1.worker k .running k)
      rw [untimed_append, hf.trace, hw, setWorker, if_pos rfl, List.append_assoc]
      rfl
    · show setWorker s1.worker k .running k ≠ .idle
      rw [setWorker, if_pos rfl]; intro hc; cases hc
    · intro m hm
      show setWorker s1.worker k .running m ≠ .queued ∧ setWorker s1.worker k .running m ≠ .running
      rw [setWorker, if_neg hm]; exact hf.others m hm
  · rw [if_neg hw]; exact hf

/-- a thread ends its job -/
theorem flight_finish {C : Cfg} {t : Nat} {s0 s1 : St} {r n : Node} {d : Bool} {h : Handle}
    (hf : Flight C r n d h s0 s1) (k : Node) : Flight C r n d h s0 (step (C.withThreads t) s1 (.finish k)) := by
  unfold step
  dsimp only
  rw [if_neg (by rw [flight_alive hf]; exact Bool.false_ne_true)]
  by_cases hw : s1.worker k = .running
  · have hk : k = n := Classical.byContradiction fun hk => (hf.others k hk).2 hw
    subst hk
    rw [if_pos hw]
    refine { hf with trace := ?_, worker := ?_, others := ?_ }
    · show untimed (s1.trace ++ [.jobEnd k]) =
        untimed s0.trace ++ .beforeRun s0.erec.untimed k :: workEvents k (setWorker s1.worker k .finished k)
      rw [untimed_append, hf.trace, hw, setWorker, if_pos rfl, List.append_assoc]
      rfl
    · show setWorker s1.worker k .finished k ≠ .idle
      rw [setWorker, if_pos rfl]; intro hc; cases hc
    · intro m hm
      show setWorker s1.worker k .finished m ≠ .queued ∧ setWorker s1.worker k .finished m ≠ .running
      rw [setWorker, if_neg hm]; exact hf.others m hm
  · rw [if_neg hw]; exact hf

/-- there is nothing for threads to do -/
theorem even_worker {C : Cfg} {t : Nat} {s0 s1 : St} (h : Even s0 s1) {m : Move} {k : Node}
    (hm : m = .begin k ∨ m = .finish k) : step (C.withThreads t) s1 m = s1 := by
  rcases hm with rfl | rfl <;> (unfold step; dsimp only; by_cases hd : s1.phase.dead = true)
  · rw [if_pos hd]
  · rw [if_neg hd]
    cases h with
    | ub h => exact absurd (by rw [h.p1]; rfl) hd
    | twin h => rw [if_neg (h.worker k).1]
  · rw [if_pos hd]
  · rw [if_neg hd]
    cases h with
    | ub h => exact absurd (by rw [h.p1]; rfl) hd
    | twin h => rw [if_neg (h.worker k).2]

theorem sim_step {C : Cfg} {s0 s1 : St} (h : Sim C s0 s1) {m : Move} (hm : m.regular = true) :
    Sim C (step (C.withThreads 0) s0 .ctl) (step (C.withThreads 1) s1 m) ∨
      Sim C s0 (step (C.withThreads 1) s1 m) := by
  cases m with
  | ctl =>
    cases h with
    | twin h =>
      rcases twin_ctl Nat.one_ne_zero h with h | ⟨r, n, d, h, hf, _⟩
      · exact .inl h.sim
      · exact .inr (.flight r n d h hf)
    | flight r n d h hf => exact flight_ctl hf
    | ub h =>
      right
      have e : step (C.withThreads 1) s1 .ctl = s1 := by
        show ctlStep _ s1 true = s1
        unfold ctlStep; rw [h.p1]
      rw [e]; exact .ub h
  | begin k =>
    right
    cases h with
    | twin h => rw [even_worker (.twin h) (.inl rfl)]; exact .twin h
    | ub h => rw [even_worker (.ub h) (.inl rfl)]; exact .ub h
    | flight r n d h hf => exact .flight r n d h (flight_begin hf k)
  | finish k =>
    right
    cases h with
    | twin h => rw [even_worker (.twin h) (.inr rfl)]; exact .twin h
    | ub h => rw [even_worker (.ub h) (.inr rfl)]; exact .ub h
    | flight r n d h hf => exact .flight r n d h (flight_finish hf k)
  | ctlFail => cases hm
  | fault f => cases hm
  | destroy => cases hm

theorem twin_init : Twin St.init St.init := by
  refine ⟨rfl, rfl, rfl, rfl, rfl, rfl, rfl, rfl, rfl, rfl, fun n => ⟨?_, ?_⟩,
    .inl ⟨rfl, .inl rfl⟩, fun d hd => ?_, fun hd => ?_, fun hd => ?_⟩
  · intro hc; cases hc
  · intro hc; cases hc
  all_goals cases hd

theorem sim_init (C : Cfg) : Sim C St.init St.init := .twin twin_init

theorem sim_exec (C : Cfg) : ∀ ms : List Move, (∀ m ∈ ms, m.regular = true) →
    ∃ k, Sim C (exec (C.withThreads 0) (List.replicate k .ctl)) (exec (C.withThreads 1) ms) := by
  intro ms
  induction ms using List.reverseRecOn with
  | nil => exact fun _ => ⟨0, sim_init C⟩
  | append_singleton ms m ih =>
    intro hms
    obtain ⟨k, hk⟩ := ih fun x hx => hms x (List.mem_append_left _ hx)
    have e : exec (C.withThreads 1) (ms ++ [m]) = step (C.withThreads 1) (exec (C.withThreads 1) ms) m := by
      unfold exec; rw [List.foldl_append]; rfl
    rw [e]
    rcases sim_step hk (hms m (List.mem_append_right _ (List.mem_singleton.mpr rfl))) with h | h
    · refine ⟨k + 1, ?_⟩
      have e0 : exec (C.withThreads 0) (List.replicate (k + 1) .ctl) =
          step (C.withThreads 0) (exec (C.withThreads 0) (List.replicate k .ctl)) .ctl := by
        unfold exec
        rw [List.replicate_succ', List.foldl_append]; rfl
      rw [e0]; exact h
    · exact ⟨k, h⟩

end Joque
