import Verif.Spec.Workspace
import Verif.Spec.Inval

/-!
# Results that fit their inputs

Jobs that make some places from others (`Spec/Workspace`).
-/

namespace Joque

/-- What a task writes no other one writes, and what it reads is written by nobody, or by a task it is
ordered after and invalidated by, directly or through other tasks. -/
structure Footprint.Wired {K : Type} (A : Footprint K) (g : Dag) : Prop where
  single : ∀ n ∈ g.nodes, ∀ m ∈ g.nodes, n ≠ m → ∀ q, A.writes n q → ¬ A.writes m q
  inputs : ∀ n ∈ g.nodes, ∀ m ∈ g.nodes, ∀ q, A.reads n q → A.writes m q →
    Relation.TransGen (AfterEdge g) n m ∧ Relation.TransGen (HasEdge g .invalidatedBy) n m

/-- what a job writes depends on nothing but what it reads -/
def Commands.FromReads {K V : Type} (J : Commands K V) (A : Footprint K) : Prop :=
  ∀ n c c', (∀ q, A.reads n q → c q = c' q) → ∀ q, A.writes n q → J.effect n c q = J.effect n c' q

/-- what the task writes is there, and as executing it now would make it -/
def Fits {K V : Type} (A : Footprint K) (J : Commands K V) (c : K → V) (n : Node) : Prop :=
  ∀ q, A.writes n q → c q = J.effect n c q

end Joque
