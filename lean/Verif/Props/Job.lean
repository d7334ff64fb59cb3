import Verif.Model.Job
import Verif.Props.Exec3

/-! # Properties of jobs that throw (C17) -/

namespace Joque

/-- the code of the job (the callable, or the custom traits) lets an exception escape -/
def Job.Throws : Job → Prop
  | .callable f => (∃ w, f = .throwsStd w) ∨ f = .throwsOther
  | .custom _ r => (∃ w, r = .throwsStd w) ∨ r = .throwsOther

/-- the case the default traits get wrong: a callable throwing a `std::exception` -/
def Job.DefaultStd : Job → Prop
  | .callable f => ∃ w, f = .throwsStd w
  | .custom _ _ => False

/-- the same execution, but jobs that throw return code 1 and one error chunk instead -/
def noThrow (C : Cfg) : Cfg :=
  { C with outcome := fun n => match C.outcome n with
      | .ret r => .ret r
      | .throwsStd w => .ret ⟨some 1,
          [⟨.error, "job run failed due to exception: ".toList ++ w⟩], []⟩
      | .throwsOther => .ret ⟨some 1,
          [⟨.error, "job run failed due to an unknown exception".toList⟩], []⟩ }

theorem asyncLambda_noThrow (C : Cfg) (n : Node) :
    asyncLambda ((noThrow C).outcome n) = asyncLambda (C.outcome n) := by
  simp only [noThrow]
  cases C.outcome n <;> rfl

/-- **C17**, part 1.  Whatever `job_iface::run` throws, the execution is in every respect (state,
events, records, schedule of the other tasks) the one in which that job returned code 1 with an
error chunk. -/
theorem C17_as_failed_task (C : Cfg) (ms : List Move) : exec (noThrow C) ms = exec C ms := by
  have hcol : collect (noThrow C) = collect C := by
    funext s ref h rest
    simp only [collect, asyncLambda_noThrow]; rfl
  have hstart : startRun (noThrow C) = startRun C := by
    funext s a ref h rest
    unfold startRun
    rw [hcol]; rfl
  have hclean : cleanStep (noThrow C) = cleanStep C := by
    funext s a d
    unfold cleanStep
    rw [hcol, hstart]
  have hctl : ctlStep (noThrow C) = ctlStep C := by
    funext s a
    unfold ctlStep
    rw [hclean]; rfl
  have hstep : step (noThrow C) = step C := by
    funext s m
    have hthrow : throwStep (noThrow C) = throwStep C := by
      funext s f k
      unfold throwStep
      rw [hctl]
    have hfault : faultStep (noThrow C) = faultStep C := by
      funext s f
      cases f <;> simp only [faultStep, hthrow, hctl]
    cases m <;> simp only [step, hfault, hctl]
  unfold exec
  rw [hstep]

/-- **C17**, part 2: a job's exception is never the reason an execution fails. -/
theorem C17_not_execution_failure (g : Dag) (res : Node → List Res) (job : Node → Option Job)
    (tc : Nat) (hwf : g.WF) (ms : List Move) (e : Exc)
    (hp : (exec (Cfg.ofJobs g res job tc) ms).phase = .threw e) :
    (e = .cycle ∧ Cyclic g) ∨
    (∃ n ∈ g.nodes, ∃ w, e = .inval w ∧ ∀ j, job n = some j → j.isInvalidated = .throws w) ∨
    (e = .asyncFailed ∧ .ctlFail ∈ ms ∧ tc ≠ 0) ∨
    (e = .visitor ∧ ∃ k, .visThrow k ∈ ms) ∨
    (e = .noMemory ∧ ∃ f, .fault f ∈ ms ∧ f.exc = .noMemory) := by
  rcases C18_only_reasons _ hwf ms e hp with h | ⟨n, hn, w, he, ha⟩ | h | ⟨h, hk, _⟩ | h
  · exact .inl h
  · refine .inr (.inl ⟨n, hn, w, he, fun j hj => ?_⟩)
    simpa [Cfg.ofJobs, hj] using ha
  · exact .inr (.inr (.inl h))
  · exact .inr (.inr (.inr (.inl ⟨h, hk⟩)))
  · exact .inr (.inr (.inr (.inr h)))

/-- **C17** for every job but a callable (default traits) throwing a `std::exception`: its record,
if its dependencies did not fail and it is out of date, is FAIL with code 1 and an error chunk. -/
theorem C17_partial (g : Dag) (res : Node → List Res) (job : Node → Option Job)
    (tc : Nat) (hwf : g.WF) (ms : List Move) (r : RunRecord)
    (hr : r ∈ recsOf (exec (Cfg.ofJobs g res job tc) ms).trace)
    (j : Job) (hj : job r.node = some j) (ht : j.Throws) (hd : ¬ j.DefaultStd)
    (h1 : r.status ≠ .depf) (h2 : r.status ≠ .skip) :
    r.status = .fail ∧ r.retcode = 1 ∧ ∃ c, r.output = [c] ∧ c.type = .error := by
  have hm := C06_status_meaning _ hwf ms r hr
  have hout : (Cfg.ofJobs g res job tc).outcome r.node = j.run := by
    simp [Cfg.ofJobs, hj]
  have hrun : (∃ w, j.run = .throwsStd w) ∨ j.run = .throwsOther := by
    cases j with
    | callable f =>
      rcases ht with ht | ht
      · exact absurd ht hd
      · right; simp [Job.run, ht, defaultTraitsRun]
    | custom a f => exact ht
  cases hst : r.status with
  | depf => exact absurd hst h1
  | skip => exact absurd hst h2
  | ok =>
    rw [hst] at hm
    obtain ⟨_, _, rr, h, _⟩ := hm
    rw [hout] at h
    rcases hrun with ⟨w, hw⟩ | hw <;> rw [hw] at h <;> cases h
  | fail =>
    rw [hst] at hm
    rcases hm.2.2 with ⟨rr, h, _⟩ | ⟨hrc, w, _, ho⟩ | ⟨hrc, _, ho⟩
    · rw [hout] at h
      rcases hrun with ⟨w, hw⟩ | hw <;> rw [hw] at h <;> cases h
    · exact ⟨rfl, hrc, _, ho, rfl⟩
    · exact ⟨rfl, hrc, _, ho, rfl⟩

/-- With the default traits a callable that throws a `std::exception` never gets the record it
should get: a finished execution contains it only as "dependency failed". -/
theorem C17_default_std (g : Dag) (res : Node → List Res) (job : Node → Option Job)
    (tc : Nat) (hwf : g.WF) (ms : List Move) (r : RunRecord)
    (hr : r ∈ recsOf (exec (Cfg.ofJobs g res job tc) ms).trace)
    (j : Job) (hj : job r.node = some j) (hd : j.DefaultStd) : r.status = .depf := by
  have hm := C06_status_meaning _ hwf ms r hr
  cases j with
  | custom a f => exact absurd hd id
  | callable f =>
  obtain ⟨w, rfl⟩ := hd
  have hout : (Cfg.ofJobs g res job tc).outcome r.node =
      .ret ((RunResult.uninit.insertErr "Uncaught exception:".toList).insertErr w) := by
    simp [Cfg.ofJobs, hj, Job.run, defaultTraitsRun]
  cases hst : r.status with
  | depf => rfl
  | skip =>
    rw [hst] at hm
    refine absurd ?_ hm.2.2.2.1
    refine ⟨r.node, .refl, ?_⟩
    simp only [SelfStale, Cfg.ofJobs, hj]
    exact ⟨_, rfl⟩
  | ok =>
    rw [hst] at hm
    obtain ⟨_, _, rr, h, h', _⟩ := hm
    rw [hout] at h
    cases h
    cases h'
  | fail =>
    rw [hst] at hm
    rcases hm.2.2 with ⟨rr, h, h', _⟩ | ⟨_, w, h, _⟩ | ⟨_, h, _⟩
    · rw [hout] at h; cases h; cases h'
    · rw [hout] at h; cases h
    · rw [hout] at h; cases h

namespace Ex

/-- task 1 throws as given, task 2 depends on it, task 3 is independent -/
def throwDag : Dag :=
  { nodes := [3, 2, 1]
    edges := [⟨2, 1, .invalidatedBy⟩, ⟨2, 1, .requires⟩, ⟨2, 1, .after⟩]
    name := fun n => List.replicate n 'x'
    task := fun n => n }

def okJob : Job := .callable (.ret ⟨some 0, [], []⟩)

def throwCfg (j : Job) : Cfg :=
  Cfg.ofJobs throwDag (fun _ => []) (fun n => some (if n = 1 then j else okJob)) 0

def boom : Job := .callable (.throwsStd "boom".toList)

theorem throwDag_wf : throwDag.WF := by
  constructor
  · decide
  · decide

end Ex

/-- a callable throwing something that is no `std::exception`: FAIL, its dependent DEPF, the
other task OK -/
example : (exec (Ex.throwCfg (.callable .throwsOther)) (List.replicate 21 .ctl)).phase = .finished ∧
    (exec (Ex.throwCfg (.callable .throwsOther)) (List.replicate 21 .ctl)).erec.runs.map
      (fun r => (r.node, r.status, r.retcode)) = [(1, .fail, 1), (2, .depf, 0), (3, .ok, 0)] := by
  decide +kernel

/-- **C17** is false for the default traits: when a callable throws a `std::exception`, the
execution reads the uninitialised `run_result::retcode` (undefined behaviour) instead of
recording a failure. -/
theorem C17_counterexample :
    Ex.boom.Throws ∧
    (exec (Ex.throwCfg Ex.boom) (List.replicate 8 .ctl)).phase = .ub ∧
    .jobEnd 1 ∈ (exec (Ex.throwCfg Ex.boom) (List.replicate 8 .ctl)).trace ∧
    recsOf (exec (Ex.throwCfg Ex.boom) (List.replicate 8 .ctl)).trace = [] := by
  refine ⟨.inl ⟨_, rfl⟩, ?_⟩
  decide +kernel

end Joque
