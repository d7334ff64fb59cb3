import Verif.Spec.Task
import Verif.Spec.Graph
import Verif.Model.InsertSet
import Mathlib.Logic.Relation

/-! # Vocabulary for what `insert_set` should build -/

namespace Joque

/-- `t` lists `d` in `depends_on` -/
def DependsOn (st : Store) (t d : TaskId) : Prop := d ∈ (st t).dependsOn

/-- `t` is to be scheduled: it is reachable through `depends_on` from a task of the set whose
full name contains the filter. -/
def Selected (st : Store) (ts : TaskSet) (filter : Str) (t : TaskId) : Prop :=
  ∃ p s, At ts p s ∧ filter <:+: fullName p ∧ Relation.ReflTransGen (DependsOn st) s t

/-- how often a relation between `t` and `d` is declared, for each kind of edge -/
def declared (st : Store) (k : EKind) (t d : TaskId) : Nat :=
  match k with
  | .after => (st t).dependsOn.count d + (st t).runAfter.count d
  | .requires => (st t).dependsOn.count d
  | .invalidatedBy => (st t).dependsOn.count d + (st t).invalidatedBy.count d

/-- What holds of every real call `insert_set(g, ts, filter)`: the set is a C++ object tree, the
dag is well formed, new nodes get fresh addresses, all tasks reachable through `depends_on` are
finitely many (`univ`), iterating `tmp` meets every initial key, iterating `index` meets every key
once. -/
structure BuildEnv (E : BEnv) (g : Dag) (ts : TaskSet) (univ visit : List TaskId)
    (order : List TaskId → List TaskId) : Prop where
  set : ts.WF
  dag : g.WF
  allocInj : ∀ i j, E.alloc i = E.alloc j → i = j
  allocFresh : ∀ i, E.alloc i ∉ g.nodes
  closed : ∀ t ∈ univ, ∀ d, DependsOn E.store t d → d ∈ univ
  univ : ∀ t, ts.Has t → t ∈ univ
  visit : ∀ t, ts.Has t → t ∈ visit
  order : ∀ l, (order l).Perm l

/-- every dependency of a task of the set is in the set -/
def NoExternal (st : Store) (ts : TaskSet) : Prop :=
  ∀ t, ts.Has t → ∀ d, DependsOn st t d → ts.Has d

end Joque
