import Verif.Spec.Untimed

/-! # What the thread that calls `tick()` does, and in which tick -/

namespace Joque

/-- A call made by the thread that calls `tick()`, without times: a callback, the creation of a thread, or
the resumption of the execution.  Jobs are dropped. -/
def Event.control : Event → Option Event
  | .jobBegin _ _ => none
  | .jobEnd _ => none
  | .onTick e => some (.onTick e.untimed)
  | .beforeRun e n => some (.beforeRun e.untimed n)
  | .afterRun e r n => some (.afterRun e.untimed r.untimed n)
  | .afterExecution e => some (.afterExecution e.untimed)
  | e => some e

/-- What the thread that calls `tick()` did, in order. -/
def control (tr : List Event) : List Event := tr.filterMap Event.control

/-- The job of `n` was executed, and found finished in the `k`-th tick: `after_run` was called then. -/
def FoundIn (tr : List Event) (n : Node) (k : Nat) : Prop :=
  ∃ p er r ref q, tr = p ++ .afterRun er r ref :: q ∧ r.node = n ∧ (r.status = .ok ∨ r.status = .fail) ∧
    p.count .resumed = k

/-- Every job is found finished in the same tick in both executions. -/
def SameTicks (tr tr' : List Event) : Prop := ∀ n k, FoundIn tr n k ↔ FoundIn tr' n k

/-- A thread for the job of `n` was created in the `k`-th tick. -/
def LaunchedIn (tr : List Event) (n : Node) (k : Nat) : Prop :=
  ∃ p q, tr = p ++ .launch n :: q ∧ p.count .resumed = k

/-- Every job for which a thread was created is found finished `d` ticks later. -/
def Lasts (d : Node → Nat) (tr : List Event) : Prop :=
  ∀ n k, LaunchedIn tr n k → FoundIn tr n (k + d n)

/-- The durations of the jobs that were executed according to the record, summed up. -/
def ExecRecord.took (er : ExecRecord) (d : Node → Nat) : Nat :=
  ((er.runs.filter fun r => r.status = .ok ∨ r.status = .fail).map fun r => d r.node).sum

end Joque
