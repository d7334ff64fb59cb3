import Verif.Model.Exec

/-!
# `exec_coro` handles (include/joque/exec_coro.hpp, src/exec_coro.cpp)

`exec_coro` objects are owning handles of coroutine frames.  The state of a program using them is
the set of live `exec_coro` objects with their `h_`, and the frames.  What a resumption of the
coroutine body does is a choice of the environment (`Next`), so all behaviours of all executions
are covered; `Model/Exec` describes which choices a particular execution can make.
-/

namespace Joque

/-- A frame at a suspension point: `promise_type::value` / `excep`
(include/joque/exec_coro.hpp:53-70). -/
inductive Next where
  /-- not at the final suspension point; `value` and `excep` empty -/
  | susp
  /-- final suspension after `co_return rec` (src/exec_coro.cpp:37-40) -/
  | returned (rec : ExecRecord)
  /-- final suspension after `unhandled_exception` (src/exec_coro.cpp:32-35) -/
  | threw (e : Exc)
  deriving DecidableEq, Repr

/-- `h_.done()` for a frame in this state (src/exec_coro.cpp:58-61): at the final suspension point. -/
def Next.done : Next → Bool
  | .susp => false
  | _ => true

/-- All `exec_coro` objects of a program (include/joque/exec_coro.hpp:14-51).
`live v`: object `v` exists and its lifetime has not ended; `h v` its `h_` (`none` = null,
include/joque/exec_coro.hpp:50).  `frame f`: state of coroutine frame `f`, `none` if there is none
(never created or destroyed).  `destroyed`: log of `h_.destroy()` calls (src/exec_coro.cpp:94).
`fresh`: next frame address. -/
structure World where
  live : Nat → Bool
  h : Nat → Option Nat
  frame : Nat → Option Next
  destroyed : List Nat
  fresh : Nat

/-- A program before its first `exec_coro` (include/joque/exec_coro.hpp:14-51). -/
def World.init : World :=
  { live := fun _ => false, h := fun _ => none, frame := fun _ => none, destroyed := [], fresh := 0 }

/-- Functional update: one member of one object changes (`h_`, include/joque/exec_coro.hpp:50). -/
def upd {α : Type} (f : Nat → α) (k : Nat) (v : α) : Nat → α := fun x => if x = k then v else f x

/-- Calls a program can make (include/joque/exec_coro.hpp:20-47). -/
inductive Op where
  /-- `exec_coro v = exec(…)` (src/exec_coro.cpp:14-24,42-45: suspended initially) -/
  | create (v : Nat)
  /-- `v.tick()`; `nxt` is what the body does when resumed -/
  | tick (v : Nat) (nxt : Next)
  /-- `exec_coro v{ std::move(w) }` -/
  | moveNew (v w : Nat)
  /-- `v = std::move(w)` -/
  | moveAssign (v w : Nat)
  /-- `v.run()`; `nxts` what the body does at each resumption -/
  | run (v : Nat) (nxts : List Next)
  /-- `v.done()` -/
  | done (v : Nat)
  /-- `v.result()` -/
  | result (v : Nat)
  /-- end of the lifetime of `v` -/
  | destroy (v : Nat)
  deriving DecidableEq, Repr

/-- `exec_coro::tick` (src/exec_coro.cpp:73-77): resumes whenever the handle is not null; a
resumption at the final suspension point, or of a destroyed frame, is undefined behaviour
(`none`). -/
def World.tick (w : World) (v : Nat) (nxt : Next) : Option World :=
  if w.live v then
    match w.h v with
    | none => some w
    | some f =>
      match w.frame f with
      | some .susp => some { w with frame := upd w.frame f (some nxt) }
      | _ => none
  else none

/-- `exec_coro::done` (src/exec_coro.cpp:58-61): undefined on a null handle. -/
def World.done (w : World) (v : Nat) : Option Bool :=
  if w.live v then
    match w.h v with
    | none => none
    | some f => (w.frame f).map Next.done
  else none

/-- What `result()` does: returns an optional record, or rethrows (src/exec_coro.cpp:63-71). -/
inductive ResultOut where
  | ret (r : Option ExecRecord)
  | throws (e : Exc)
  deriving DecidableEq, Repr

/-- `exec_coro::result` (src/exec_coro.cpp:63-71). -/
def World.result (w : World) (v : Nat) : Option ResultOut :=
  if w.live v then
    match w.h v with
    | none => some (.ret none)
    | some f =>
      match w.frame f with
      | none => none
      | some .susp => some (.ret none)
      | some (.returned r) => some (.ret (some r))
      | some (.threw e) => some (.throws e)
  else none

/-- What `run()` does (src/exec_coro.cpp:79-89). -/
inductive RunOut where
  | ub
  /-- the environment's choices end before the body is done: still blocked in the loop -/
  | blocked (w : World)
  | returns (w : World) (r : ResultOut)

/-- `exec_coro::run` (src/exec_coro.cpp:79-89). -/
def World.run (w : World) (v : Nat) : List Next → RunOut
  | [] =>
    match w.done v, w.result v with
    | some true, some r => .returns w r
    | some false, _ => .blocked w
    | _, _ => .ub
  | nxt :: rest =>
    match w.done v, w.result v with
    | some true, some r => .returns w r
    | some false, _ =>
      match w.tick v nxt with
      | none => .ub
      | some w' => w'.run v rest
    | _, _ => .ub

/-- Move constructor (src/exec_coro.cpp:47-50): `h_` starts null and is swapped. -/
def World.moveNew (w : World) (v o : Nat) : Option World :=
  if w.live v = false ∧ w.live o = true then
    some { w with live := upd w.live v true, h := upd (upd w.h v (w.h o)) o none }
  else none

/-- Move assignment (src/exec_coro.cpp:52-56): swaps `h_`. -/
def World.moveAssign (w : World) (v o : Nat) : Option World :=
  if w.live v = true ∧ w.live o = true then
    some { w with h := upd (upd w.h v (w.h o)) o (w.h v) }
  else none

/-- Destructor (src/exec_coro.cpp:91-95). -/
def World.destroy (w : World) (v : Nat) : Option World :=
  if w.live v then
    match w.h v with
    | none => some { w with live := upd w.live v false }
    | some f =>
      match w.frame f with
      | none => none
      | some _ => some { w with live := upd w.live v false, h := upd w.h v none
                                frame := upd w.frame f none, destroyed := w.destroyed ++ [f] }
  else none

/-- A new execution (src/exec_coro.cpp:14-24,42-45). -/
def World.create (w : World) (v : Nat) : Option World :=
  if w.live v = false then
    some { w with live := upd w.live v true, h := upd w.h v (some w.fresh)
                  frame := upd w.frame w.fresh (some .susp), fresh := w.fresh + 1 }
  else none

/-- One call of a member (src/exec_coro.cpp:42-95); `none` = undefined behaviour.  A `run()` that is
still blocked leaves the world as its ticks made it. -/
def World.step (w : World) : Op → Option World
  | .create v => w.create v
  | .tick v n => w.tick v n
  | .moveNew v o => w.moveNew v o
  | .moveAssign v o => w.moveAssign v o
  | .run v ns =>
    match w.run v ns with
    | .ub => none
    | .blocked w' => some w'
    | .returns w' _ => some w'
  | .done v => (w.done v).map (fun _ => w)
  | .result v => (w.result v).map (fun _ => w)
  | .destroy v => w.destroy v

/-- A whole program: calls of the members of include/joque/exec_coro.hpp:20-47 in sequence. -/
def World.runOps (w : World) : List Op → Option World
  | [] => some w
  | op :: ops => (w.step op).bind (fun w' => w'.runOps ops)

end Joque
