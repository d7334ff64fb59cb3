import Verif.Spec.Trace
import Verif.Model.Candidate
import Verif.Spec.Inval

/-! # What the marks of a node mean (C118) -/

namespace Joque

/-- the job of `n` has been handed to a thread, or begun on the thread that calls `tick()` -/
def HandedOver (tr : List Event) (n : Node) : Prop := .launch n ∈ tr ∨ .jobBegin n true ∈ tr

/-- what the last report about the freshness of `n` said -/
def lastSaid (n : Node) (tr : List Event) : Inval :=
  tr.foldl (fun v e => match e with
    | .jobInval m i _ => if m = n then i else v
    | .depInval m _ => if m = n then .invalid else v
    | _ => v) .unknown

/-- the marks say what has happened -/
structure Agree (f : Flags) (tr : List Event) : Prop where
  inval : ∀ n, f.inval n = lastSaid n tr
  started : ∀ n, f.started n = true ↔ HandedOver tr n
  done : ∀ n, f.done n = true ↔ Recorded tr n
  failed : ∀ n, f.failed n = true ↔
    ∃ r ∈ recsOf tr, r.node = n ∧ (r.status = .fail ∨ r.status = .depf)

/-- a call of the visitor after the freshness of all nodes has been settled -/
def Event.late : Event → Bool
  | .onTick _ | .beforeRun _ _ | .runLog _ _ | .afterRun _ _ _ | .afterExecution _ => true
  | _ => false

/-- the `invalidated` marks say which nodes are out of date -/
def StaleMarks (g : Dag) (ask : Node → InvalOut) (f : Flags) : Prop := ∀ n ∈ g.nodes,
  (f.inval n = .invalid ↔ Stale g ask n) ∧ (f.inval n = .valid ↔ ¬ Stale g ask n)

end Joque
