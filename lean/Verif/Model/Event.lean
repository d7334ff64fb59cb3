import Verif.Model.Basic

/-!
# Records and observable events
-/

namespace Joque

/-- `struct run_record` (include/joque/records.hpp:33-53).  `node` is a ghost field: the C++
record does not store the node, it stores the task reference `t` and the `name` copied from it
(src/exec.cpp:107).  `start`/`end` are logical times: the number of observable events that
happened before `system_clock::now()` was read; real clock values are any monotone function
of them (simplification: the clock is assumed monotone). -/
structure RunRecord where
  node : Node
  t : TaskId
  name : Str
  status : Status
  retcode : Int
  start : Nat
  «end» : Nat
  output : List Chunk
  deriving DecidableEq, Repr

/-- `exec_record::stats` (include/joque/records.hpp:70-75): a map initialised with all four
keys. -/
structure Stats where
  ok : Nat
  skip : Nat
  depf : Nat
  fail : Nat
  deriving DecidableEq, Repr

/-- `stats.at(s)` (src/format.cpp:91-92, src/junit.cpp:74; include/joque/records.hpp:70-75). -/
def Stats.get (st : Stats) : Status → Nat
  | .ok => st.ok
  | .skip => st.skip
  | .depf => st.depf
  | .fail => st.fail

/-- `stats[s] += 1` (src/exec.cpp:33). -/
def Stats.incr (st : Stats) : Status → Stats
  | .ok => { st with ok := st.ok + 1 }
  | .skip => { st with skip := st.skip + 1 }
  | .depf => { st with depf := st.depf + 1 }
  | .fail => { st with fail := st.fail + 1 }

/-- `struct exec_record` (include/joque/records.hpp:68-80). -/
structure ExecRecord where
  stats : Stats
  totalCount : Nat
  runs : List RunRecord
  deriving DecidableEq, Repr

/-- Default constructed `exec_record` (include/joque/records.hpp:70-79, src/exec.cpp:297). -/
def ExecRecord.init : ExecRecord :=
  { stats := { ok := 0, skip := 0, depf := 0, fail := 0 }, totalCount := 0, runs := [] }

/-- `push` (src/exec.cpp:31-35). -/
def ExecRecord.push (e : ExecRecord) (r : RunRecord) : ExecRecord :=
  { e with stats := e.stats.incr r.status, runs := e.runs ++ [r] }

/-- Everything an observer of one execution can see, in order: the visitor callbacks
(include/joque/exec_visitor.hpp:11-64), the calls of `exec_coro::tick`, and the moments at which
a job's `run` is handed to a worker, begins and ends. -/
inductive Event where
  /-- the user resumed the execution (`exec_coro::tick`, src/exec_coro.cpp:73-77) -/
  | resumed
  /-- `after_node_enque(n)` -/
  | nodeEnque (n : Node)
  /-- `on_detected_cycle(c)` -/
  | detectedCycle (c : List Node)
  /-- `after_job_is_inval(n, log)`; `i` is `n->invalidated` at the time of the call -/
  | jobInval (n : Node) (i : Inval) (log : Str)
  /-- `after_dep_inval(n, invalidator)` -/
  | depInval (n invalidator : Node)
  /-- `on_tick(erec)` -/
  | onTick (erec : ExecRecord)
  /-- `before_run(erec, n)` -/
  | beforeRun (erec : ExecRecord) (n : Node)
  /-- `std::async(std::launch::async, …)` called for `n` (src/exec.cpp:134) -/
  | launch (n : Node)
  /-- `n->t.job->run(n->t)` entered; `onControl` iff on the thread that called `tick()` -/
  | jobBegin (n : Node) (onControl : Bool)
  /-- `n->t.job->run(n->t)` left (by return or exception) -/
  | jobEnd (n : Node)
  /-- `on_run_log(n, log)` -/
  | runLog (n : Node) (log : Str)
  /-- `after_run(erec, &rec, node)` -/
  | afterRun (erec : ExecRecord) (rec : RunRecord) (node : Node)
  /-- `after_execution(erec)` -/
  | afterExecution (erec : ExecRecord)
  deriving DecidableEq, Repr

end Joque
