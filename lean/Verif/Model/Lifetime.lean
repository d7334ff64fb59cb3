import Verif.Model.Exec

/-!
# Which tasks an execution uses, and when (src/exec.cpp:54-60,80-81,111-173,187,202; src/print_exec_visitor.cpp)

A node of the dag, and a run record, refer to a task the program owns (include/joque/dag.hpp:73,
include/joque/records.hpp:36).  Using a task that does not exist any more is undefined behaviour.
-/

namespace Joque

/-- The nodes whose task `n->t` may be read in a move: its resources, its job, `hidden`.

* In the first resumption all of them: `n->t.job` in `after_node_enque` of the default visitor
  (src/print_exec_visitor.cpp:30), `is_invalidated` (src/exec.cpp:202).
* In `find_candidate` the resources of the tasks it could choose (src/exec.cpp:80-81): not started, not
  done, everything they run after done.  (The search may stop earlier: a superset.)
* In `cleanup_coros` the task of a coroutine that begins or collects a result: `hidden`
  (src/print_exec_visitor.cpp:78,96), the resources and the job (src/exec.cpp:131-139,165).  A coroutine
  that goes on waiting reads nothing (src/exec.cpp:158-159).
* A thread made by `std::async` reads the task from the beginning to the end of the job
  (src/exec.cpp:139). -/
def taskReads (C : Cfg) (s : St) : Move → List Node
  | .begin n => if !s.phase.dead && s.worker n = .queued then [n] else []
  | .finish n => if !s.phase.dead && s.worker n = .running then [n] else []
  | .destroy => []
  | _ =>
    match s.phase with
    | .created => C.dag.nodes
    | .clean _ =>
      match s.todo with
      | [] => []
      | sl :: _ =>
        if !sl.h.launched || s.worker sl.h.node = .finished then [sl.h.node] else []
    | .pick =>
      if s.todo.length ≥ C.threadCount ∧ C.threadCount ≠ 0 then []
      else C.dag.nodes.filter fun n =>
        !s.flags.started n && !s.flags.done n && allDone s.flags (filterEdges .after (C.dag.outEdges n))
    | _ => []

/-- One move (src/exec.cpp:134-156,295-343) while the tasks `alive` exist. -/
def stepLife (C : Cfg) (s : St) (alive : TaskId → Bool) (m : Move) : St :=
  if (taskReads C s m).all (fun n => alive (C.dag.task n)) then step C s m
  else { s with phase := .ub }

/-- The state after a list of moves (src/exec.cpp:295-343), where each move is made while the given tasks
exist. -/
def execLife (C : Cfg) (l : List ((TaskId → Bool) × Move)) : St :=
  l.foldl (fun s p => stepLife C s p.1 p.2) St.init

end Joque
