import Verif.Model.Task

/-!
# Putting a task set together (include/joque/task.hpp:27-66, include/joque/job.hpp:51-67)

Programs fill a `task_set` by assigning to elements of its two maps: `ts.tasks["x"] = std::move(t)`
and `ts.sets["lib"] = make_lib()`.  A `task` or a `task_set` can be moved but not copied (`job_ptr`
deletes the copy operations, include/joque/job.hpp:62-63), so these are the moves the compiler writes.
A map keeps its elements in nodes of their own, which change hands when the map is moved: the tasks of
a moved set stay where they are.
-/

namespace Joque

/-- What a move leaves behind (include/joque/task.hpp:30-50): the job is null (`std::unique_ptr`),
the vectors are empty (so all implementations do it; the standard only says "valid but unspecified"),
`hidden` is copied. -/
def Task.movedFrom (t : Task) : Task :=
  { job := none, dependsOn := [], runAfter := [], invalidatedBy := [], resources := [],
    hidden := t.hidden }

/-- `dst = std::move( src )` for two different `task` objects (include/joque/task.hpp:27-51): member by
member; references to either object go on referring to it. -/
def Store.move (st : Store) (src dst : TaskId) : Store :=
  (st.set dst (st src)).set src (st src).movedFrom

/-- `m[ n ] = v` for one of the maps of a set (include/joque/task.hpp:63,65), the entries in map
order. -/
def mapPut {α : Type} (n : Str) (v : α) : List (Str × α) → List (Str × α)
  | [] => [(n, v)]
  | (k, w) :: r =>
    if n = k then (k, v) :: r
    else if n < k then (n, v) :: (k, w) :: r
    else (k, w) :: mapPut n v r

/-- `ts.sets[ n ] = std::move( s )` (include/joque/task.hpp:65): the maps of `s` are moved, and with
them the nodes of its tasks and subsets.  What the set `n` held before is destroyed. -/
def TaskSet.putSet (ts : TaskSet) (n : Str) (s : TaskSet) : TaskSet :=
  match ts with
  | .mk tasks sets => .mk tasks (mapPut n s sets)

/-- `&ts.tasks[ n ]` (include/joque/task.hpp:63): the element there is, or a new one at the address
`new`. -/
def TaskSet.taskRef (ts : TaskSet) (n : Str) (new : TaskId) : TaskId :=
  match ts with
  | .mk tasks _ => ((tasks.find? fun e => e.1 = n).map Prod.snd).getD new

/-- `ts.tasks[ n ] = std::move( t )` with the object `src` for `t` (include/joque/task.hpp:63). -/
def TaskSet.putTask (ts : TaskSet) (n : Str) (src new : TaskId) (st : Store) : TaskSet × Store :=
  match ts with
  | .mk tasks sets =>
    (.mk (mapPut n (TaskSet.taskRef (.mk tasks sets) n new) tasks) sets,
      st.move src (TaskSet.taskRef (.mk tasks sets) n new))

end Joque
