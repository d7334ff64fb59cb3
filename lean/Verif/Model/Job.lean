import Verif.Model.Exec

/-!
# Jobs (include/joque/job.hpp, include/joque/traits.hpp)

`task::job` points to a `job<T>`, which forwards to `job_traits<T>`.  A job is therefore given by
what its traits do: the default traits wrap a callable, specialisations may do anything.
-/

namespace Joque

/-- A `job<T>` (include/joque/job.hpp:24-46). -/
inductive Job where
  /-- `T` without a specialisation of `job_traits`; `f` is what calling the stored callable with
  the task does -/
  | callable (f : JobOut)
  /-- `T` with its own `job_traits`: what its `is_invalidated` and `run` do -/
  | custom (ask : InvalOut) (run : JobOut)
  deriving DecidableEq, Repr

/-- `insert_err` (include/joque/run_result.hpp:49-52,59-62) -/
def RunResult.insertErr (r : RunResult) (data : Str) : RunResult :=
  { r with output := r.output ++ [⟨.error, data⟩] }

/-- `insert_std` (include/joque/run_result.hpp:49-57) -/
def RunResult.insertStd (r : RunResult) (data : Str) : RunResult :=
  { r with output := r.output ++ [⟨.standard, data⟩] }

/-- `run_result res;` – `retcode` indeterminate (include/joque/traits.hpp:26). -/
def RunResult.uninit : RunResult := { retcode := none, output := [], log := [] }

/-- `job_traits<T>::run` of the default traits (include/joque/traits.hpp:20-31). -/
def defaultTraitsRun : JobOut → JobOut
  | .ret r => .ret r
  | .throwsStd w =>
    .ret ((RunResult.uninit.insertErr "Uncaught exception:".toList).insertErr w)
  | .throwsOther => .throwsOther

/-- `job<T>::run` (include/joque/job.hpp:42-45). -/
def Job.run : Job → JobOut
  | .callable f => defaultTraitsRun f
  | .custom _ r => r

/-- `job<T>::is_invalidated` (include/joque/job.hpp:37-40); default traits:
include/joque/traits.hpp:15-18. -/
def Job.isInvalidated : Job → InvalOut
  | .callable _ => .answer { invalidated := true, log := "always invalidated".toList }
  | .custom a _ => a

/-- An execution whose nodes carry the given jobs (`none` = `nullptr`; `task::job`,
include/joque/task.hpp:27-51). -/
def Cfg.ofJobs (g : Dag) (res : Node → List Res) (job : Node → Option Job) (tc : Nat) : Cfg :=
  { dag := g
    resources := res
    hasJob := fun n => (job n).isSome
    ask := fun n => match job n with
      | some j => j.isInvalidated
      | none => .throws []
    outcome := fun n => match job n with
      | some j => j.run
      | none => .throwsOther
    threadCount := tc }

end Joque
