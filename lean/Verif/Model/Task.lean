import Verif.Model.Job

/-!
# Tasks and task sets (include/joque/task.hpp, src/task.cpp)

The objects of type `task` live inside `std::map`s of the task set tree (or elsewhere, e.g. on
the stack) and refer to each other by address.  So the model has a store `TaskId → Task` and the
tree, whose leaves are the addresses of its tasks.
-/

namespace Joque

/-- `struct task` (include/joque/task.hpp:27-51); references are addresses. -/
structure Task where
  job : Option Job
  dependsOn : List TaskId
  runAfter : List TaskId
  invalidatedBy : List TaskId
  resources : List Res
  hidden : Bool
  deriving DecidableEq, Repr

/-- All task objects of the program (include/joque/task.hpp:27-51). -/
abbrev Store := TaskId → Task

/-- `struct task_set` (include/joque/task.hpp:60-66): the entries of the two `std::map`s in map
order. -/
inductive TaskSet where
  | mk (tasks : List (Str × TaskId)) (sets : List (Str × TaskSet))

mutual
/-- The calls `for_each_task_impl(ts, f, prefix)` makes, in order
(include/joque/task.hpp:93-100). -/
def forEachTaskImpl (pfx : Str) : TaskSet → List (Str × TaskId)
  | .mk tasks sets =>
    tasks.map (fun e => ((pfx ++ ['/']) ++ e.1, e.2)) ++ forEachSubset pfx sets

/-- Second loop of `for_each_task_impl` (include/joque/task.hpp:98-99). -/
def forEachSubset (pfx : Str) : List (Str × TaskSet) → List (Str × TaskId)
  | [] => []
  | (name, s) :: rest => forEachTaskImpl ((pfx ++ ['/']) ++ name) s ++ forEachSubset pfx rest
end

/-- The calls `for_each_task(ts, f)` makes (include/joque/task.hpp:102-107). -/
def forEachTask (ts : TaskSet) : List (Str × TaskId) := forEachTaskImpl ['/'] ts

/-- Write one task object (include/joque/task.hpp:27-51). -/
def Store.set (st : Store) (t : TaskId) (v : Task) : Store := fun x => if x = t then v else st x

/-- `for_each_add_dep(ts, dep)` (src/task.cpp:7-13). -/
def forEachAddDep (ts : TaskSet) (dep : TaskId) (st : Store) : Store :=
  (forEachTask ts).foldl (fun st e =>
    if e.2 ≠ dep then
      st.set e.2 { st e.2 with dependsOn := (st e.2).dependsOn ++ [dep] }
    else st) st

/-- `add_dep_to_each(t, ts)` (src/task.cpp:15-21). -/
def addDepToEach (t : TaskId) (ts : TaskSet) (st : Store) : Store :=
  (forEachTask ts).foldl (fun st e =>
    if t ≠ e.2 then st.set t { st t with dependsOn := (st t).dependsOn ++ [e.2] } else st) st

/-- `run_each_after(ts, t)` (src/task.cpp:23-29). -/
def runEachAfter (ts : TaskSet) (t : TaskId) (st : Store) : Store :=
  (forEachTask ts).foldl (fun st e =>
    if e.2 ≠ t then
      st.set e.2 { st e.2 with runAfter := (st e.2).runAfter ++ [t] }
    else st) st

/-- `run_after_all_of(t, ts)` (src/task.cpp:31-37). -/
def runAfterAllOf (t : TaskId) (ts : TaskSet) (st : Store) : Store :=
  (forEachTask ts).foldl (fun st e =>
    if t ≠ e.2 then st.set t { st t with runAfter := (st t).runAfter ++ [e.2] } else st) st

/-- `invalidated_by_all_of(t, ts)` (src/task.cpp:39-45). -/
def invalidatedByAllOf (t : TaskId) (ts : TaskSet) (st : Store) : Store :=
  (forEachTask ts).foldl (fun st e =>
    if t ≠ e.2 then
      st.set t { st t with invalidatedBy := (st t).invalidatedBy ++ [e.2] }
    else st) st

end Joque
