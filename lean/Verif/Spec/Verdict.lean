import Verif.Spec.Build

/-!
# What executing a task set means

Said in terms of the task objects only – no dag, no scheduler.
-/

namespace Joque

/-- among the selected tasks, `t` is declared to come after `d` -/
def OrderedAfter (st : Store) (sel : TaskId → Prop) (t d : TaskId) : Prop :=
  sel t ∧ sel d ∧ (d ∈ (st t).dependsOn ∨ d ∈ (st t).runAfter)

/-- the declared order of the selected tasks cannot be satisfied -/
def OrderCycle (st : Store) (sel : TaskId → Prop) : Prop :=
  ∃ t, Relation.TransGen (OrderedAfter st sel) t t

/-- the job of `t` says that it is out of date -/
def SaysStale (st : Store) (t : TaskId) : Prop :=
  ∃ j log, (st t).job = some j ∧ j.isInvalidated = .answer { invalidated := true, log := log }

/-- `t`, or a selected task it is transitively invalidated by (dependencies included), says that
it is out of date -/
def OutOfDate (st : Store) (sel : TaskId → Prop) (t : TaskId) : Prop :=
  ∃ u, Relation.ReflTransGen
      (fun a b => sel b ∧ (b ∈ (st a).dependsOn ∨ b ∈ (st a).invalidatedBy)) t u ∧ SaysStale st u

/-- running the job `j` gives return code `rc` and output `out`: what it returned, or 1 and a
message if it threw -/
def Yields (j : Job) (rc : Int) (out : List Chunk) : Prop :=
  match j.run with
  | .ret rr => rr.retcode = some rc ∧ out = rr.output
  | .throwsStd w => rc = 1 ∧ out = [⟨.error, "job run failed due to exception: ".toList ++ w⟩]
  | .throwsOther => rc = 1 ∧ out = [⟨.error, "job run failed due to an unknown exception".toList⟩]

/-- what is said about one task in the end -/
structure Verdict where
  status : Status
  retcode : Int
  output : List Chunk
  deriving DecidableEq, Repr

/-- some dependency of `t` failed or was not run for such a reason -/
def DepFailed (st : Store) (v : TaskId → Verdict) (t : TaskId) : Prop :=
  ∃ d ∈ (st t).dependsOn, (v d).status = .fail ∨ (v d).status = .depf

/-- The equations that the verdicts of the selected tasks satisfy. -/
structure Verdicts (st : Store) (sel : TaskId → Prop) (v : TaskId → Verdict) : Prop where
  depf : ∀ t, sel t → DepFailed st v t → v t = ⟨.depf, 0, []⟩
  skip : ∀ t, sel t → ¬ DepFailed st v t → ¬ OutOfDate st sel t → v t = ⟨.skip, 0, []⟩
  ran : ∀ t, sel t → ¬ DepFailed st v t → OutOfDate st sel t →
    ∃ j, (st t).job = some j ∧ Yields j (v t).retcode (v t).output ∧
      (v t).status = if (v t).retcode = 0 then .ok else .fail

end Joque
