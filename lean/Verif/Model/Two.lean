import Verif.Model.Exec

/-!
# Two executions driven in turn

`exec` returns an `exec_coro` (include/joque/exec.hpp:41-53); a program may hold several and call
`tick()` on them in turn.  Everything an execution works on is local to its coroutine
(src/exec.cpp:295-343), in particular `used_resources` (src/exec.cpp:309).

One control thread ticks both, so while one of them is inside a `tick()` (or a destructor) the
other one's control flow stands still; workers of both go on at any time.
-/

namespace Joque

/-- The control thread is not inside a `tick()` or a destructor of this execution
(src/exec_coro.cpp:73-77,91-95). -/
def Phase.between : Phase → Bool
  | .created | .susp _ | .finished | .threw _ | .destroyed => true
  | _ => false

/-- The move is one of the control thread (src/exec_coro.cpp:73-77,91-95). -/
def Move.control : Move → Bool
  | .ctl | .ctlFail | .fault _ | .destroy => true
  | .begin _ | .finish _ => false

/-- Two executions (src/exec.cpp:295-343) and the common history: which of them (`false`: the first), and
the event. -/
structure Two where
  fst : St
  snd : St
  log : List (Bool × Event)

/-- right after both calls of `exec` (src/exec.cpp:283-295) -/
def Two.init : Two := { fst := St.init, snd := St.init, log := [] }

/-- one move of one of them (src/exec.cpp:295-343, include/joque/exec_coro.hpp): a move of the
control thread requires that it is not inside the other one -/
def Two.step (C D : Cfg) (w : Two) : Bool × Move → Two
  | (false, m) =>
    if m.control && !w.snd.phase.between then w
    else
      let s := Joque.step C w.fst m
      { w with fst := s, log := w.log ++ (s.trace.drop w.fst.trace.length).map (Prod.mk false) }
  | (true, m) =>
    if m.control && !w.fst.phase.between then w
    else
      let s := Joque.step D w.snd m
      { w with snd := s, log := w.log ++ (s.trace.drop w.snd.trace.length).map (Prod.mk true) }

/-- a program that drives both (src/exec.cpp:283-343) -/
def Two.exec (C D : Cfg) (ms : List (Bool × Move)) : Two := ms.foldl (Two.step C D) Two.init

end Joque
