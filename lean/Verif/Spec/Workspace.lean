import Verif.Model.Exec
import Verif.Spec.Graph
import Verif.Spec.Trace

/-!
# What jobs read and write

Jobs work on places (files, variables) that hold values.  `K` are the places, `V` the values.
-/

namespace Joque

/-- which places the job of a task may read and which it may write -/
structure Footprint (K : Type) where
  reads : Node → K → Prop
  writes : Node → K → Prop

/-- a place the job of `n` reads or writes -/
def Footprint.Touches {K : Type} (A : Footprint K) (n : Node) (q : K) : Prop := A.reads n q ∨ A.writes n q

/-- If one task writes what another one reads or writes, then one of the two is ordered after the
other, directly or through other tasks. -/
def Footprint.RaceFree {K : Type} (A : Footprint K) (g : Dag) : Prop :=
  ∀ n ∈ g.nodes, ∀ m ∈ g.nodes, n ≠ m → ∀ q, A.Touches n q → A.writes m q →
    Relation.TransGen (AfterEdge g) n m ∨ Relation.TransGen (AfterEdge g) m n

/-- what a job writes and how it ends, from what it finds when it begins -/
structure Commands (K V : Type) where
  effect : Node → (K → V) → K → V
  outcome : Node → (K → V) → JobOut

/-- a job depends on nothing but the places it may read or write -/
structure Commands.Within {K V : Type} (J : Commands K V) (A : Footprint K) : Prop where
  effect : ∀ n c c', (∀ q, A.Touches n q → c q = c' q) →
    ∀ q, A.writes n q → J.effect n c q = J.effect n c' q
  outcome : ∀ n c c', (∀ q, A.Touches n q → c q = c' q) → J.outcome n c = J.outcome n c'

/-- `cont i` is what the places hold after the first `i` events of the history `tr`: a place changes
only while a job is executing that may write it, and a job leaves what it makes of what it found. -/
structure Workspace {K V : Type} (A : Footprint K) (J : Commands K V) (outcome : Node → JobOut)
    (tr : List Event) (cont : Nat → K → V) : Prop where
  change : ∀ i < tr.length, ∀ q, cont (i + 1) q ≠ cont i q →
    ∃ n, Running (tr.take i) n ∧ A.writes n q
  result : ∀ i j n b, tr[j]? = some (.jobBegin n b) → tr[i]? = some (.jobEnd n) →
    outcome n = J.outcome n (cont j) ∧ ∀ q, A.writes n q → cont (i + 1) q = J.effect n (cont j) q

end Joque
