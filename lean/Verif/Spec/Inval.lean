import Verif.Spec.Graph
import Verif.Model.Inval

/-! # Vocabulary for invalidation -/

namespace Joque

/-- The job of `n` itself reports that it is out of date. -/
def SelfStale (ask : Node → InvalOut) (n : Node) : Prop :=
  ∃ log, ask n = .answer { invalidated := true, log := log }

/-- `n` is out of date: it, or something it is transitively invalidated by, says so itself. -/
def Stale (g : Dag) (ask : Node → InvalOut) (n : Node) : Prop :=
  ∃ m, Relation.ReflTransGen (HasEdge g .invalidatedBy) n m ∧ SelfStale ask m

end Joque
