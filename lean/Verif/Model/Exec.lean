import Verif.Model.Cycle
import Verif.Model.Candidate
import Verif.Model.Inval

/-!
# The execution engine (src/exec.cpp:100-193, 295-343; src/run_coro.hpp)

One execution is a transition system.  Its moves are
* `ctl` – the thread calling `exec_coro::tick` executes its next atomic portion of the coroutine
  `exec` (or, if it is suspended, resumes it),
* `ctlFail` – same, but if that portion calls `std::async(std::launch::async, …)`, that call
  throws `std::system_error` (no thread available),
* `fault f` – same as `ctl`, but something fails in that portion: the visitor callback that is its
  `k`-th event throws (`visThrow k`), or an allocation of the engine does,
* `begin n` / `finish n` – the worker thread of node `n` enters / leaves the job,
* `destroy` – the owner destroys the suspended `exec_coro`.

All interleavings of worker threads with the control thread are move lists.  Jobs behave as given
by `Cfg.outcome`.
Assertions (`assert`) are assumed enabled; a failing one is the outcome `abort`.
-/

namespace Joque

/-- What calling `n->t.job->run(n->t)` does (include/joque/job.hpp:19). -/
inductive JobOut where
  | ret (r : RunResult)
  | throwsStd (what : Str)
  | throwsOther
  deriving DecidableEq, Repr

/-- Text of the error chunk for `std::exception` (src/exec.cpp:145-146). -/
def excMsg (what : Str) : Str := "job run failed due to exception: ".toList ++ what

/-- Text of the error chunk for other exceptions (src/exec.cpp:152). -/
def unknownExcMsg : Str := "job run failed due to an unknown exception".toList

/-- The lambda given to `std::async` (src/exec.cpp:136-155). -/
def asyncLambda : JobOut → RunResult
  | .ret r => r
  | .throwsStd w => { retcode := some 1, output := [⟨.error, excMsg w⟩], log := [] }
  | .throwsOther => { retcode := some 1, output := [⟨.error, unknownExcMsg⟩], log := [] }

/-- Inputs of one execution (src/exec.cpp:295): the dag, what the tasks of its nodes are and do, the
thread count.  `hasJob n` iff `n->t.job != nullptr` (include/joque/task.hpp:27-51); `resources n` is
`n->t.resources`.  Each job is run at most once per node, so a function of the node covers every
behaviour of (possibly stateful) jobs. -/
structure Cfg where
  dag : Dag
  resources : Node → List Res
  hasJob : Node → Bool
  ask : Node → InvalOut
  outcome : Node → JobOut
  threadCount : Nat

/-- A suspended `run` coroutine (src/exec.cpp:100-174): the node it was created for, whether it
is still at its initial suspension point (`launched = false`) or in the
`while (fut.wait_for(0ms) …)` loop, and the `start` field of its local `result`. -/
structure Handle where
  node : Node
  launched : Bool
  start : Nat
  deriving DecidableEq, Repr

/-- A `run_coro` object (src/run_coro.hpp:14-127): the reference member `node_` and the coroutine
handle `h_`.  They are separate because move assignment (src/run_coro.hpp:71-75) swaps only
`h_`. -/
structure Slot where
  ref : Node
  h : Handle
  deriving DecidableEq, Repr

/-- State of the worker thread of a node (src/exec.cpp:134-160): no thread / thread created by
`std::async` / inside the job / shared state ready. -/
inductive Worker where
  | idle
  | queued
  | running
  | finished
  deriving DecidableEq, Repr

/-- Why an execution ended with an exception (`promise_type::excep`, src/exec_coro.cpp:32-35). -/
inductive Exc where
  /-- `std::runtime_error("Cycle detected")` (src/exec.cpp:306) -/
  | cycle
  /-- `is_invalidated` threw -/
  | inval (what : Str)
  /-- `std::async` threw -/
  | asyncFailed
  /-- a visitor callback threw -/
  | visitor
  /-- `std::bad_alloc` of the engine itself: its sets, vectors, strings and coroutine frames -/
  | noMemory
  deriving DecidableEq, Repr

/-- Control point of the coroutine `exec` (src/exec.cpp:295-343). -/
inductive Phase where
  /-- initial suspension (src/exec_coro.cpp:20-24) -/
  | created
  /-- evaluating `while (!to_process.empty())` (src/exec.cpp:312) -/
  | loopTop
  /-- inside `cleanup_coros`, called at src/exec.cpp:314 (`drain = false`) or :336 -/
  | clean (drain : Bool)
  /-- after `cleanup_coros` in the first loop (src/exec.cpp:315) -/
  | pick
  /-- suspended at src/exec.cpp:316/333 (`drain = false`) or :337 -/
  | susp (drain : Bool)
  /-- evaluating `while (!coros.empty())` (src/exec.cpp:335) -/
  | drainTop
  /-- final suspension after `co_return erec` -/
  | finished
  /-- an exception left the body, locals are being destroyed: `coros` waits for its futures -/
  | unwinding (e : Exc)
  /-- final suspension after `unhandled_exception` -/
  | threw (e : Exc)
  /-- `h_.destroy()` is waiting for futures (src/exec_coro.cpp:91-95) -/
  | destroying
  /-- coroutine frame gone -/
  | destroyed
  /-- undefined behaviour was reached -/
  | ub
  /-- an `assert` failed -/
  | abort
  /-- model fuel exhausted (shown impossible) -/
  | outOfFuel
  deriving DecidableEq, Repr

/-- State of an execution: the variables of `exec` (src/exec.cpp:297-310), the fields of the nodes
(include/joque/dag.hpp:71-80), the worker threads and the history.  `todo` are the elements of `coros`
(outside `cleanup_coros`: all of them).  Inside `cleanup_coros` (src/exec.cpp:176-193): `todo` the
elements not visited yet, `kept` the handles to keep, `passed` the `node_` references of the visited
elements. -/
structure St where
  phase : Phase
  toProcess : List Node
  flags : Flags
  used : List Res
  todo : List Slot
  kept : List Handle
  passed : List Node
  worker : Node → Worker
  erec : ExecRecord
  trace : List Event

/-- State right after calling `exec(dag, thread_count, vis)`: the coroutine is created suspended;
node flags have their default values (include/joque/dag.hpp:72-80). -/
def St.init : St :=
  { phase := .created
    toProcess := []
    flags := { inval := fun _ => .unknown, started := fun _ => false, done := fun _ => false,
               failed := fun _ => false }
    used := []
    todo := []
    kept := []
    passed := []
    worker := fun _ => .idle
    erec := ExecRecord.init
    trace := [] }

/-- One more event in the history: a call that leaves src/exec.cpp (of the visitor, of a job) or the end
of one. -/
def St.emit (s : St) (e : Event) : St := { s with trace := s.trace ++ [e] }

/-- `system_clock::now()` (include/joque/records.hpp:47,50, src/exec.cpp:172): the reading is named by its
place in the history. -/
def St.now (s : St) : Nat := s.trace.length

/-- Assignment to a `bool` of a node (include/joque/dag.hpp:75-80). -/
def setFlag (f : Node → Bool) (n : Node) : Node → Bool := fun m => if m = n then true else f m

/-- The worker thread of a node changes its state (src/exec.cpp:134-160). -/
def setWorker (f : Node → Worker) (n : Node) (w : Worker) : Node → Worker :=
  fun m => if m = n then w else f m

/-- `to_process` after the loop at src/exec.cpp:299-302. -/
def toProcessOf (g : Dag) : List Node := g.nodes.foldl (fun tp n => sinsert n tp) []

/-- The part of `exec` before the first loop (src/exec.cpp:297-310), executed by the first
resumption. No worker exists yet, so it is one move. -/
def prologue (C : Cfg) (s : St) : St :=
  let tp := toProcessOf C.dag
  let s := { s with
    toProcess := tp
    erec := { ExecRecord.init with totalCount := tp.length }
    trace := s.trace ++ Event.resumed :: C.dag.nodes.map Event.nodeEnque }
  match hasCycle C.dag tp with
  | .outOfFuel => { s with phase := .outOfFuel }
  | .assertFailed => { s with phase := .abort }
  | .result true reps =>
    { s with phase := .unwinding .cycle, trace := s.trace ++ reps.map Event.detectedCycle }
  | .result false reps =>
    let s := { s with trace := s.trace ++ reps.map Event.detectedCycle }
    match propagateInvalidation C.dag C.hasJob C.ask tp s.flags.inval with
    | .outOfFuel => { s with phase := .outOfFuel }
    | .assertFailed => { s with phase := .abort }
    | .ub ev => { s with phase := .ub, trace := s.trace ++ ev }
    | .threw w ev => { s with phase := .unwinding (.inval w), trace := s.trace ++ ev }
    | .ok p =>
      { s with phase := .loopTop, flags := { s.flags with inval := p.inval },
               trace := s.trace ++ p.events }

/-- The rest of the `erase_if` predicate once the coroutine of the first `todo` element (with
reference `ref`) is done with result `r` (src/exec.cpp:185-191): `after_run`, `push`, element
removed. -/
def complete (s : St) (ref : Node) (rest : List Slot) (r : RunRecord) : St :=
  let s := s.emit (.afterRun s.erec r ref)
  { s with erec := s.erec.push r, passed := s.passed ++ [ref], todo := rest }

/-- `run` from `run_result rr = fut.get()` to the end (src/exec.cpp:160-173), then `complete`.
Reading an indeterminate `retcode` is undefined behaviour. -/
def collect (C : Cfg) (s : St) (ref : Node) (h : Handle) (rest : List Slot) : St :=
  let n := h.node
  let rr := asyncLambda (C.outcome n)
  match rr.retcode with
  | none => { s with phase := .ub }
  | some rc =>
    let s := s.emit (.runLog n rr.log)
    let s := { s with used := s.used.filter (fun r => r ∉ C.resources n) }
    let s := if rc ≠ 0 then
        { s with flags := { s.flags with failed := setFlag s.flags.failed n } } else s
    let s := { s with flags := { s.flags with done := setFlag s.flags.done n } }
    complete s ref rest
      { node := n, t := C.dag.task n, name := C.dag.name n
        status := if rc ≠ 0 then .fail else .ok
        retcode := rc, start := h.start, «end» := s.now, output := rr.output }

/-- First resumption of a `run` coroutine (src/exec.cpp:107-156).  With `std::launch::deferred`
(`thread_count == 0`) `wait_for` returns `deferred`, not `timeout`, so the job is executed by
`fut.get()` in the same resumption. -/
def startRun (C : Cfg) (s : St) (asyncOk : Bool) (ref : Node) (h : Handle) (rest : List Slot) :
    St :=
  let n := h.node
  let t0 := s.now
  let r0 : RunRecord :=
    { node := n, t := C.dag.task n, name := C.dag.name n, status := .ok, retcode := 0
      start := t0, «end» := t0, output := [] }
  if s.flags.inval n = .unknown then { s with phase := .abort }
  else
    let s := s.emit (.beforeRun s.erec n)
    if anyDepFailed s.flags (C.dag.outEdges n) then
      let s := { s with flags := { s.flags with
        done := setFlag s.flags.done n, failed := setFlag s.flags.failed n } }
      complete s ref rest { r0 with status := .depf }
    else if s.flags.inval n = .valid then
      let s := { s with flags := { s.flags with done := setFlag s.flags.done n } }
      complete s ref rest { r0 with status := .skip }
    else
      let s := { s with
        flags := { s.flags with started := setFlag s.flags.started n }
        used := s.used ++ C.resources n }
      if C.threadCount = 0 then
        let s := (s.emit (.jobBegin n true)).emit (.jobEnd n)
        collect C s ref { h with launched := true, start := t0 } rest
      else if asyncOk then
        let s := s.emit (.launch n)
        { s with worker := setWorker s.worker n .queued
                 todo := ⟨ref, { h with launched := true, start := t0 }⟩ :: rest }
      else
        -- the exception ends the coroutine, `coro.result()` rethrows it (src/exec.cpp:185);
        -- the finished coroutine owns no future, so it is dropped here
        { s with phase := .unwinding .asyncFailed, todo := rest }

/-- One portion of `cleanup_coros` (src/exec.cpp:176-193): `std::erase_if` over the vector.
The elements kept are move-assigned to the front, i.e. their handles are swapped into the
objects at the front, whose `node_` references stay (src/run_coro.hpp:71-75). -/
def cleanStep (C : Cfg) (s : St) (asyncOk : Bool) (drain : Bool) : St :=
  match s.todo with
  | [] =>
    { s with
      todo := List.zipWith Slot.mk s.passed s.kept
      kept := []
      passed := []
      phase := if drain then .susp true else .pick }
  | sl :: rest =>
    if !sl.h.launched then startRun C s asyncOk sl.ref sl.h rest
    else if s.worker sl.h.node = .finished then collect C s sl.ref sl.h rest
    else { s with kept := s.kept ++ [sl.h], passed := s.passed ++ [sl.ref], todo := rest }

/-- src/exec.cpp:315-333. -/
def pickStep (C : Cfg) (s : St) : St :=
  if s.todo.length ≥ C.threadCount ∧ C.threadCount ≠ 0 then { s with phase := .susp false }
  else
    match findCandidate C.dag C.resources s.flags s.used s.toProcess with
    | none => { s with phase := .outOfFuel }
    | some (some n) =>
      { s with toProcess := serase n s.toProcess
               todo := s.todo ++ [⟨n, { node := n, launched := false, start := 0 }⟩]
               phase := .susp false }
    | some none =>
      if s.todo = [] then { s with phase := .abort } else { s with phase := .susp false }

/-- All futures owned by `coros` (src/exec.cpp:134,310) are ready or were never created, so destroying
it does not block: a `std::async` future blocks in its destructor until the thread is done. -/
def joinable (s : St) : Bool :=
  (s.kept ++ s.todo.map Slot.h).all (fun h =>
    s.worker h.node = .idle || s.worker h.node = .finished)

/-- One portion of the control thread, which executes `exec` (src/exec.cpp:295-343) between calls of
`tick()` (src/exec_coro.cpp:73-77). -/
def ctlStep (C : Cfg) (s : St) (asyncOk : Bool) : St :=
  match s.phase with
  | .created => prologue C s
  | .loopTop =>
    if s.toProcess = [] then { s with phase := .drainTop }
    else { s.emit (.onTick s.erec) with phase := .clean false }
  | .clean d => cleanStep C s asyncOk d
  | .pick => pickStep C s
  | .susp d => { s.emit .resumed with phase := if d then .drainTop else .loopTop }
  | .drainTop =>
    if s.todo = [] then { s.emit (.afterExecution s.erec) with phase := .finished }
    else { s with phase := .clean true }
  | .unwinding e => if joinable s then { s with phase := .threw e } else s
  | .destroying => if joinable s then { s with phase := .destroyed } else s
  -- `exec_coro::tick` resumes a coroutine suspended at its final suspension point:
  -- undefined behaviour
  | .finished => { s with phase := .ub }
  | .threw _ => { s with phase := .ub }
  | .destroyed => s
  | .ub => s
  | .abort => s
  | .outOfFuel => s

/-- The event is a call of a member function of the visitor
(include/joque/exec_visitor.hpp:11-64). -/
def Event.isCallback : Event → Bool
  | .resumed | .launch _ | .jobBegin _ _ | .jobEnd _ => false
  | _ => true

/-- What can go wrong in a portion of the control thread, apart from what `Cfg` and `ctlFail` say: the
`k`-th event of the portion is a visitor callback (include/joque/exec_visitor.hpp:11-64) that throws; an
allocation made by the engine fails after the `k`-th event of the portion (for instance at
src/exec.cpp:107, 132, 134, 190, 205, 226, 249, 255, 300, or at src/exec.cpp:143,150 on the thread that
called `tick()`); or it fails before the portion has called anything (src/exec.cpp:70, 107, 143, 150,
325).  A superset of the places where the engine allocates. -/
inductive Fault where
  | visitor (k : Nat)
  | memory (k : Nat)
  | memoryBefore
  deriving DecidableEq, Repr

/-- The exception of a fault (src/exec.cpp:295-343). -/
def Fault.exc : Fault → Exc
  | .visitor _ => .visitor
  | .memory _ => .noMemory
  | .memoryBefore => .noMemory

/-- The event can be the last of a portion with this fault: nothing is allocated between a successful
`std::async` and the end of its portion (src/exec.cpp:134-159), and an exception inside a job is caught
(src/exec.cpp:141-153). -/
def Fault.cuts : Fault → Event → Bool
  | .visitor _, e => e.isCallback
  | _, .launch _ => false
  | _, .jobBegin _ _ => false
  | _, _ => true

/-- A portion of the control thread in which the exception of `f` is thrown after the `k`-th event.  From
`exec` itself (src/exec.cpp:187, 209, 227, 264, 301, 313, 340) the exception leaves the body
directly; from `run` (src/exec.cpp:111, 163) it ends that coroutine, and `coro.result()` rethrows it
(src/exec.cpp:185, src/run_coro.hpp:86-87).  In both cases the elements of `coros` stay in the vector
until it is destroyed.  Nothing reads the flags of the nodes any more, so they are left as they
were (simplification); `push` (src/exec.cpp:190) is not reached when `after_run` throws, but the
record of the execution is not observable any more, so it does not matter that it is in `erec`
(simplification).  A portion without such an event is an ordinary one. -/
def throwStep (C : Cfg) (s : St) (f : Fault) (k : Nat) : St :=
  let s' := ctlStep C s true
  match s'.trace[s.trace.length + k]? with
  | some e =>
    if f.cuts e then
      match e with
      | .afterRun _ _ _ => { s' with phase := .unwinding f.exc }
      | _ => { s with
          phase := .unwinding f.exc
          trace := s'.trace.take (s.trace.length + k + 1) }
    else s'
  | none => s'

/-- A portion of the control thread with a fault (src/exec.cpp:295-343).  A portion that has called
nothing yet can fail in the loop, in `cleanup_coros` (where `run` starts, or where `fut.get()` rethrows
what the lambda of src/exec.cpp:136-155 could not handle) and when a coroutine is made; elsewhere it is
an ordinary one. -/
def faultStep (C : Cfg) (s : St) : Fault → St
  | .visitor k => throwStep C s (.visitor k) k
  | .memory k => throwStep C s (.memory k) k
  | .memoryBefore =>
    match s.phase with
    | .loopTop | .clean _ | .pick | .drainTop => { s with phase := .unwinding .noMemory }
    | _ => ctlStep C s true

/-- `exec_coro::~exec_coro` → `h_.destroy()` (src/exec_coro.cpp:91-95): possible whenever the coroutine
is suspended. -/
def destroyStep (s : St) : St :=
  match s.phase with
  | .created | .susp _ | .finished | .threw _ => { s with phase := .destroying }
  | _ => s

/-- Moves of the transition system: the control thread (src/exec.cpp:295-343) and the threads made by
`std::async` (src/exec.cpp:134-156). -/
inductive Move where
  | ctl
  | ctlFail
  | fault (f : Fault)
  | begin (n : Node)
  | finish (n : Node)
  | destroy
  deriving DecidableEq, Repr

/-- A visitor callback throws (include/joque/exec_visitor.hpp:11-64). -/
abbrev Move.visThrow (k : Nat) : Move := .fault (.visitor k)

/-- Nothing is modelled after undefined behaviour, an abort (src/exec.cpp:109,217,277,332), or running
out of model fuel. -/
def Phase.dead : Phase → Bool
  | .ub | .abort | .outOfFuel => true
  | _ => false

/-- One move; a move that is not possible changes nothing (src/exec.cpp:134-156,295-343). -/
def step (C : Cfg) (s : St) : Move → St
  | .ctl => ctlStep C s true
  | .ctlFail => ctlStep C s false
  | .fault f => faultStep C s f
  | .begin n =>
    if s.phase.dead then s
    else if s.worker n = .queued then
      { s.emit (.jobBegin n false) with worker := setWorker s.worker n .running }
    else s
  | .finish n =>
    if s.phase.dead then s
    else if s.worker n = .running then
      { s.emit (.jobEnd n) with worker := setWorker s.worker n .finished }
    else s
  | .destroy => destroyStep s

/-- The state after a list of moves from the start of `exec` (src/exec.cpp:295-343). -/
def exec (C : Cfg) (ms : List Move) : St := ms.foldl (step C) St.init

end Joque
