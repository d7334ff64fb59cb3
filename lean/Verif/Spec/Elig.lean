import Verif.Spec.Graph
import Verif.Model.Candidate

/-! # Which task may be started -/

namespace Joque

/-- `n` may be started now: not started or finished yet, everything it is ordered after is
finished, none of its resources is in use. -/
structure Eligible (g : Dag) (res : Node → List Res) (f : Flags) (used : List Res) (n : Node) :
    Prop where
  notStarted : f.started n = false
  notDone : f.done n = false
  predsDone : ∀ m, AfterEdge g n m → f.done m = true
  resFree : ∀ r ∈ res n, r ∉ used

end Joque
