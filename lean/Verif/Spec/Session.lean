import Verif.Model.Session

/-! # Executions that share a visitor -/

namespace Joque

/-- The nodes a call passes by reference. -/
def Event.about : Event → List Node
  | .nodeEnque n => [n]
  | .detectedCycle c => c
  | .jobInval n _ _ => [n]
  | .depInval n m => [n, m]
  | .beforeRun _ n => [n]
  | .runLog n _ => [n]
  | .afterRun _ _ n => [n]
  | _ => []

/-- After the calls `tr` the visitor was told that `n` starts, and neither that `n` ended nor, since
then, that an execution ended. -/
def OpenAt (tr : List Event) (n : Node) : Prop :=
  ∃ a er b, tr = a ++ .beforeRun er n :: b ∧
    (∀ er r, .afterRun er r n ∉ b) ∧ ∀ er, .afterExecution er ∉ b

/-- The calls of an execution whose dag is the only one in existence. -/
def callsOf (C : Cfg) (ms : List Move) (E : VisitEnv) : List VCall :=
  (exec C ms).trace.map fun e => { env := E, alive := fun n => n ∈ C.dag.nodes, ev := e }

/-- the call tells the visitor that `n` starts, and the visitor prints it: the task is not hidden, or the
visitor is verbose -/
def VCall.showsStart (verbose : Bool) (c : VCall) (n : Node) : Prop :=
  (∃ er, c.ev = .beforeRun er n) ∧ (verbose = true ∨ c.env.hidden (c.env.task n) = false)

/-- After the calls `cs` the visitor was told, and printed, that `n` starts, and neither that `n` ended nor,
since then, that an execution ended. -/
def StillShown (verbose : Bool) (cs : List VCall) (n : Node) : Prop :=
  ∃ a c b, cs = a ++ c :: b ∧ c.showsStart verbose n ∧
    ∀ d ∈ b, (∀ er r, d.ev ≠ .afterRun er r n) ∧ ∀ er, d.ev ≠ .afterExecution er

end Joque
