import Mathlib.Logic.Relation
import Verif.Model.Basic

/-!
# Vocabulary for statements about dags

Independent of the scheduler model: everything is said in terms of the edge list.
-/

namespace Joque

/-- `a` has an edge of kind `k` to `b`. -/
def HasEdge (g : Dag) (k : EKind) (a b : Node) : Prop := ⟨a, b, k⟩ ∈ g.edges

/-- `a` is ordered after `b`. -/
abbrev AfterEdge (g : Dag) : Node → Node → Prop := HasEdge g .after

/-- The AFTER relation has a cycle. -/
def Cyclic (g : Dag) : Prop := ∃ n, Relation.TransGen (AfterEdge g) n n

/-- `c` is a cycle of the AFTER relation: distinct nodes, each ordered after the next one, the
last after the first. -/
def IsCycle (g : Dag) (c : List Node) : Prop :=
  0 < c.length ∧ c.Nodup ∧
  ∀ i (hi : i < c.length),
    AfterEdge g c[i] (c[(i + 1) % c.length]'(Nat.mod_lt _ (Nat.lt_of_le_of_lt (Nat.zero_le i) hi)))

/-- What the API guarantees about a dag: nodes have distinct addresses and edges connect nodes
of the dag. (Connecting nodes of two different dags is outside the contract of `exec`.) -/
structure Dag.WF (g : Dag) : Prop where
  nodup : g.nodes.Nodup
  closed : ∀ e ∈ g.edges, e.src ∈ g.nodes ∧ e.tgt ∈ g.nodes

end Joque
