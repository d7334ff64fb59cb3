import Verif.Spec.Trace

/-! # Vocabulary for the length of an execution

The length of an execution is its number of ticks (resumptions).  How long a job takes is measured by
the number of ticks that begin while it is executed by its thread. -/

namespace Joque

/-- The job of `n` was handed to a thread and has not ended. -/
def OnThread (tr : List Event) (n : Node) : Prop := Event.launch n ∈ tr ∧ ¬ JobEnded tr n

open Classical in
/-- Number of ticks such that `P` holds of the history before the tick. -/
noncomputable def ticksWhere (P : List Event → Prop) (tr : List Event) : Nat :=
  (List.range tr.length).countP fun i => tr[i]? = some Event.resumed ∧ P (tr.take i)

/-- How long the job of `n` takes: the number of ticks beginning while it is on its thread. -/
noncomputable def jobTicks (tr : List Event) (n : Node) : Nat := ticksWhere (OnThread · n) tr

/-- `x` may have to wait for `y`: `x` or a task it is (transitively) ordered after is itself ordered
after `y` or has a resource in common with `y`. -/
def WaitsFor (g : Dag) (res : Node → List Res) (x y : Node) : Prop :=
  ∃ z, Relation.ReflTransGen (AfterEdge g) x z ∧ (AfterEdge g z y ∨ z ≠ y ∧ ∃ r ∈ res z, r ∈ res y)

end Joque
