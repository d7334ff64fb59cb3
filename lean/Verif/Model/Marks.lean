import Verif.Model.Exec

/-!
# The marks of the nodes at each call

Visitors get references to nodes, whose marks (`invalidated`, `started`, `done`, `failed`,
include/joque/dag.hpp:71-80) they can read.  `Model/Exec` has the marks between two portions of the control
thread.  Here are the marks at each event of a portion.
-/

namespace Joque

/-- The `invalidated` marks at the calls of `after_job_is_inval` in the first loop of
`propagate_invalidation` (src/exec.cpp:200-210): the mark is set before the call. -/
def queryMarks (hasJob : Node → Bool) (ask : Node → InvalOut) :
    List Node → (Node → Inval) → List (Node → Inval)
  | [], _ => []
  | n :: ns, f =>
    if hasJob n then
      match ask n with
      | .throws _ => []
      | .answer r =>
        let f' := setInval f n (if r.invalidated then .invalid else .valid)
        f' :: queryMarks hasJob ask ns f'
    else []

/-- The `invalidated` marks at the calls of `after_dep_inval` for the in-edges of one node
(src/exec.cpp:218-228): the mark is set before the call. -/
def propEdgesMarks (seen : List Node) : List Edge → (Node → Inval) → List (Node → Inval)
  | [], _ => []
  | e :: es, f =>
    if e.src ∈ seen then propEdgesMarks seen es f
    else
      let f' := setInval f e.src .invalid
      f' :: propEdgesMarks seen es f'

/-- The same for the whole loop (src/exec.cpp:212-229). -/
def propLoopMarks (g : Dag) : Nat → List Node → List Node → PSt → List (Node → Inval)
  | 0, _, _, _ => []
  | _ + 1, [], _, _ => []
  | fuel + 1, p :: tp, seen, s =>
    let seen' := p :: seen
    if s.inval p ≠ .invalid then []
    else
      let es := filterEdges .invalidatedBy (g.inEdges p)
      let r := propEdges seen' es tp s
      propEdgesMarks seen' es s.inval ++ propLoopMarks g fuel r.1 seen' r.2

/-- The `invalidated` marks at the calls of `propagate_invalidation` (src/exec.cpp:195-230). -/
def propagateMarks (g : Dag) (hasJob : Node → Bool) (ask : Node → InvalOut)
    (toProcess : List Node) (inval0 : Node → Inval) : List (Node → Inval) :=
  queryMarks hasJob ask toProcess inval0 ++
    match queryLoop hasJob ask toProcess [] { inval := inval0, events := [] } with
    | .ok tp s => propLoopMarks g (g.nodes.length + 1) tp tp s
    | _ => []

/-- The marks at the events of the part of `exec` before the first loop (src/exec.cpp:297-310). -/
def prologueMarks (C : Cfg) (s : St) : List Flags :=
  s.flags :: C.dag.nodes.map (fun _ => s.flags) ++
    match hasCycle C.dag (toProcessOf C.dag) with
    | .result true reps => reps.map (fun _ => s.flags)
    | .result false reps =>
      let is := propagateMarks C.dag C.hasJob C.ask (toProcessOf C.dag) s.flags.inval
      match propagateInvalidation C.dag C.hasJob C.ask (toProcessOf C.dag) s.flags.inval with
      | .ok _ | .ub _ | .threw _ _ =>
        reps.map (fun _ => s.flags) ++ is.map (fun i => { s.flags with inval := i })
      | _ => reps.map (fun _ => s.flags)
    | _ => []

/-- The marks at `on_run_log` and `after_run` once the result of a job is there (src/exec.cpp:160-188):
`failed` and `done` are set between the two. -/
def collectMarks (C : Cfg) (f : Flags) (n : Node) : List Flags :=
  match (asyncLambda (C.outcome n)).retcode with
  | none => []
  | some rc =>
    let f1 := if rc ≠ 0 then { f with failed := setFlag f.failed n } else f
    [f, { f1 with done := setFlag f1.done n }]

/-- The marks at the events of the first resumption of a `run` coroutine (src/exec.cpp:107-160):
`before_run` comes first, then the marks are set. -/
def startMarks (C : Cfg) (f : Flags) (asyncOk : Bool) (n : Node) : List Flags :=
  if f.inval n = .unknown then []
  else if anyDepFailed f (C.dag.outEdges n) then
    [f, { f with done := setFlag f.done n, failed := setFlag f.failed n }]
  else if f.inval n = .valid then [f, { f with done := setFlag f.done n }]
  else
    let f1 := { f with started := setFlag f.started n }
    if C.threadCount = 0 then [f, f1, f1] ++ collectMarks C f1 n
    else if asyncOk then [f, f1]
    else [f]

/-- The marks at the events of one portion of the control thread (src/exec.cpp:295-343). -/
def ctlMarks (C : Cfg) (s : St) (asyncOk : Bool) : List Flags :=
  match s.phase with
  | .created => prologueMarks C s
  | .loopTop => if s.toProcess = [] then [] else [s.flags]
  | .clean _ =>
    match s.todo with
    | [] => []
    | sl :: _ =>
      if !sl.h.launched then startMarks C s.flags asyncOk sl.h.node
      else if s.worker sl.h.node = .finished then collectMarks C s.flags sl.h.node
      else []
  | .susp _ => [s.flags]
  | .drainTop => if s.todo = [] then [s.flags] else []
  | _ => []

/-- The marks at the events of one move (src/exec.cpp:134-156,295-343).  A portion that ends with an
exception has the first of the events, and marks, of the complete one. -/
def stepMarks (C : Cfg) (s : St) : Move → List Flags
  | .ctl => ctlMarks C s true
  | .ctlFail => ctlMarks C s false
  | .fault _ => ctlMarks C s true
  | .begin _ | .finish _ => [s.flags]
  | .destroy => []

/-- One move, and what it adds to the history, each event with the marks the nodes have then
(src/exec.cpp:134-156,295-343). -/
def mstep (C : Cfg) (p : St × List (Event × Flags)) (m : Move) : St × List (Event × Flags) :=
  (step C p.1 m,
    p.2 ++ ((step C p.1 m).trace.drop p.1.trace.length).zip (stepMarks C p.1 m))

/-- The state and the history with marks after a list of moves (src/exec.cpp:295-343). -/
def mexec (C : Cfg) (ms : List Move) : St × List (Event × Flags) := ms.foldl (mstep C) (St.init, [])

end Joque
