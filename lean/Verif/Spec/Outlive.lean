import Verif.Spec.Trace

/-! # Tasks that outlive a task which began earlier -/

namespace Joque

def Event.isResumed : Event → Bool
  | .resumed => true
  | _ => false

/-- How often the execution was resumed in the history `tr`. -/
def resumes (tr : List Event) : Nat := tr.countP Event.isResumed

/-- Some task that began before `x` was reported when `x` had begun, or in the resumption in which `x`
began, and in an earlier resumption than the present one, the one `tr` ends in. -/
def Outlives (tr : List Event) (x : Node) : Prop :=
  ∃ (i j p : Nat) (e1 e2 e3 : ExecRecord) (r : RunRecord) (m : Node),
    i < j ∧ tr[i]? = some (.beforeRun e1 r.node) ∧ tr[j]? = some (.beforeRun e2 x) ∧
    tr[p]? = some (.afterRun e3 r m) ∧
    resumes (tr.take j) ≤ resumes (tr.take p) ∧ resumes (tr.take p) < resumes tr

end Joque
