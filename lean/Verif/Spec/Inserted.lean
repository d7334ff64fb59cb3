import Verif.Spec.Build

/-! # A dag filled by several calls of `insert_set` -/

namespace Joque

/-- `g` was empty, and then there were the calls `insert_set(g, ts, filter)` of the list, the last one
first, without a change to the tasks in between. -/
inductive InsertedBy (st : Store) : List (TaskSet × Str) → Dag → Prop
  | none : InsertedBy st [] Dag.empty
  | call {cs : List (TaskSet × Str)} {g : Dag} {E : BEnv} {ts : TaskSet} {filter : Str}
      {univ visit : List TaskId} {order : List TaskId → List TaskId} {fuel : Nat} {s : BSt} :
      InsertedBy st cs g → E.store = st → BuildEnv E g ts univ visit order → univ.length < fuel →
      insertSet E fuel g ts filter visit order = .ok s → InsertedBy st ((ts, filter) :: cs) s.dag

/-- how many of the calls select the task -/
noncomputable def selections (st : Store) (cs : List (TaskSet × Str)) (t : TaskId) : Nat :=
  open Classical in cs.countP fun c => decide (Selected st c.1 c.2 t)

/-- how many nodes the task has -/
def copies (g : Dag) (t : TaskId) : Nat := g.nodes.countP fun n => decide (g.task n = t)

end Joque
