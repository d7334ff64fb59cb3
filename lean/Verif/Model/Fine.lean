import Verif.Model.Exec

/-!
# Callbacks one at a time

`Model/Exec` executes a portion of the control thread in one step, also where it makes several calls
that can be observed: `before_run` and then `std::async` (src/exec.cpp:111,134) or `after_run`
(src/exec.cpp:111,187), `on_run_log` and then `after_run` (src/exec.cpp:163,187).  Here the calls of a
portion are made one by one, and jobs on threads go on in between.

What a portion does is decided when it begins: the only thing it learns from other threads is whether
the shared state of one future is ready (src/exec.cpp:158), which it asks before its first call.
-/

namespace Joque

/-- An execution (src/exec.cpp:295-343) some way through a portion of the control thread: its state at
the end of the portion, the calls the portion has not made yet, and what was observed so far.  (Records
have the times of the state at the end of the portion: which ticks of a clock a time stamp means is not
part of this model.) -/
structure FSt where
  s : St
  pend : List Event
  seen : List Event

/-- src/exec.cpp:295-343: the execution is created suspended, nothing was called. -/
def FSt.init : FSt := { s := St.init, pend := [], seen := [] }

/-- What can happen: the control thread makes its next call (src/exec.cpp:100-343), or a move of
`Model/Exec`. -/
inductive FMove where
  | next
  | move (m : Move)
  deriving DecidableEq, Repr

/-- A thread made by `std::async` goes on (src/exec.cpp:134-156); it does not exist before that call. -/
def fworker (C : Cfg) (f : FSt) (n : Node) (m : Move) : FSt :=
  if .launch n ∈ f.pend then f
  else
    let s' := step C f.s m
    { f with s := s', seen := f.seen ++ s'.trace.drop f.s.trace.length }

/-- One step: a call of the control thread; a thread going on; or, when the control thread has made all
its calls, its next portion (src/exec.cpp:134-156,295-343). -/
def fstep (C : Cfg) (f : FSt) : FMove → FSt
  | .next =>
    match f.pend with
    | [] => f
    | e :: es => { f with pend := es, seen := f.seen ++ [e] }
  | .move (.begin n) => fworker C f n (.begin n)
  | .move (.finish n) => fworker C f n (.finish n)
  | .move m =>
    if f.pend = [] then
      let s' := step C f.s m
      { f with s := s', pend := s'.trace.drop f.s.trace.length }
    else f

/-- After a list of such steps from the start of `exec` (src/exec.cpp:295-343). -/
def fexec (C : Cfg) (fms : List FMove) : FSt := fms.foldl (fstep C) FSt.init

end Joque
