import Verif.Model.Changes

/-! # When the resources of a task may be changed -/

namespace Joque

/-- What the tasks listed before the next move. -/
def listed (C : Cfg) (l : List ((Node → List Res) × Move)) : Node → List Res :=
  match l.getLast? with
  | some p => p.1
  | none => C.resources

/-- The task has been started and its result was not taken yet: the fields `started` and `done` of its
node, which every callback can read. -/
def InProgress (s : St) (n : Node) : Prop := s.flags.started n = true ∧ s.flags.done n = false

/-- A change from `R` to `R'` that respects the running tasks: a task in progress keeps its resources; a
task which is not finished gets additionally only resources that no task in progress uses. -/
def Respects (C : Cfg) (s : St) (R R' : Node → List Res) : Prop :=
  ∀ n ∈ C.dag.nodes,
    (InProgress s n → ∀ r, r ∈ R' n ↔ r ∈ R n) ∧
    (s.flags.started n = false → s.flags.done n = false →
      ∀ r ∈ R' n, r ∈ R n ∨ ∀ m, InProgress s m → r ∉ R m)

/-- All changes made during the execution respect the running tasks. -/
def CarefulCh (C : Cfg) (l : List ((Node → List Res) × Move)) : Prop :=
  ∀ pre R m post, l = pre ++ (R, m) :: post → Respects C (execCh C pre) (listed C pre) R

end Joque
