import Verif.Model.Event
import Verif.Spec.Graph

/-!
# Vocabulary for observable histories

A history (`List Event`, oldest first) is what an observer sees of one execution.  "At every
moment" means "for every prefix of the history".
-/

namespace Joque

/-- The job of `n` was entered. -/
def JobBegan (tr : List Event) (n : Node) : Prop := ∃ b, Event.jobBegin n b ∈ tr

/-- The job of `n` was left. -/
def JobEnded (tr : List Event) (n : Node) : Prop := Event.jobEnd n ∈ tr

/-- The job of `n` is executing at the end of the history `tr`. -/
def Running (tr : List Event) (n : Node) : Prop := JobBegan tr n ∧ ¬ JobEnded tr n

/-- The run records handed out so far, in order. -/
def recsOf (tr : List Event) : List RunRecord :=
  tr.filterMap (fun e => match e with
    | .afterRun _ r _ => some r
    | _ => none)

/-- `n` has got its run record. -/
def Recorded (tr : List Event) (n : Node) : Prop := ∃ r ∈ recsOf tr, r.node = n

/-- Kinds of things that happen to one node. -/
inductive Tag where
  | before
  | launch
  | begin (onControl : Bool)
  | end
  | log
  | after
  deriving DecidableEq, Repr

/-- What event `e` means for node `n`. -/
def tagOf (n : Node) (e : Event) : Option Tag :=
  match e with
  | .beforeRun _ m => if m = n then some .before else none
  | .launch m => if m = n then some .launch else none
  | .jobBegin m b => if m = n then some (.begin b) else none
  | .jobEnd m => if m = n then some .end else none
  | .runLog m _ => if m = n then some .log else none
  | .afterRun _ r _ => if r.node = n then some .after else none
  | _ => none

/-- The history of node `n`. -/
def life (n : Node) (tr : List Event) : List Tag := tr.filterMap (tagOf n)

/-- `erec` is the execution record one expects after the history `tr`: the records handed out so
far, their counts per status, and the number of nodes. -/
structure ErecOK (g : Dag) (tr : List Event) (erec : ExecRecord) : Prop where
  runs : erec.runs = recsOf tr
  stats : ∀ st, erec.stats.get st = erec.runs.countP (fun r => r.status = st)
  total : erec.totalCount = g.nodes.length

/-- No task was started since the last time the execution was resumed. -/
def NoStartSince (tr : List Event) : Prop :=
  ∀ pre er n post, tr = pre ++ Event.beforeRun er n :: post → Event.resumed ∈ post

end Joque
