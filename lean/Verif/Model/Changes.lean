import Verif.Model.Exec

/-!
# Tasks whose resources change while they are executed (src/exec.cpp:54-60,80-81,131-132,165-166)

A node of the dag refers to its task (include/joque/dag.hpp:73), and the engine reads `n->t.resources`
where it needs it: in `find_candidate`, when the job is started and when its result is collected.  The
owner of the tasks can change the lists meanwhile (between two ticks, in a callback, or in a job executed
by the thread that called `tick()`).
-/

namespace Joque

/-- The tasks list the resources `R` (include/joque/task.hpp:45-47). -/
def Cfg.withRes (C : Cfg) (R : Node → List Res) : Cfg := { C with resources := R }

/-- The state after a list of moves (src/exec.cpp:295-343), where each move is made while the tasks list
the given resources. -/
def execCh (C : Cfg) (l : List ((Node → List Res) × Move)) : St :=
  l.foldl (fun s p => step (C.withRes p.1) s p.2) St.init

/-- An infinite execution (src/exec.cpp:295-343) of that kind. -/
def runCh (C : Cfg) (σ : Nat → (Node → List Res) × Move) : Nat → St
  | 0 => St.init
  | i + 1 => step (C.withRes (σ i).1) (runCh C σ i) (σ i).2

end Joque
