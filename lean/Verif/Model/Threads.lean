import Verif.Model.Exec

/-!
# Executions on different threads of a program

`exec` returns an `exec_coro` (include/joque/exec.hpp:41-53); a program may have one on each of its
threads and call `tick()` on each from its own thread.  Everything an execution works on is local to
its coroutine (src/exec.cpp:295-343), apart from what it is given: the tasks (`exec` copies the
references of the dag, not the tasks) and the visitor, by default the global `PRINT_VISITOR`
(include/joque/exec.hpp:43,51; include/joque/print_exec_visitor.hpp:51-52).
-/

namespace Joque

/-- The state of all executions of a program, numbered by their threads (src/exec.cpp:295-343), and
the common history: which execution, and the event. -/
structure Par where
  st : Nat → St
  log : List (Nat × Event)

/-- right after the calls of `exec` (src/exec.cpp:283-295) -/
def Par.init : Par := { st := fun _ => St.init, log := [] }

/-- One move of execution `p.1` (src/exec.cpp:295-343).  Unlike `Two.step`, nothing keeps two control
threads from being inside `tick()` at the same time. -/
def Par.step (C : Nat → Cfg) (w : Par) (p : Nat × Move) : Par :=
  let s := Joque.step (C p.1) (w.st p.1) p.2
  { st := fun k => if k = p.1 then s else w.st k
    log := w.log ++ (s.trace.drop (w.st p.1).trace.length).map (Prod.mk p.1) }

/-- a program that drives all of them (src/exec.cpp:283-343) -/
def Par.exec (C : Nat → Cfg) (ms : List (Nat × Move)) : Par := ms.foldl (Par.step C) Par.init

end Joque
