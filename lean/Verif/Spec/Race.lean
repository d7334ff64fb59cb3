import Verif.Spec.HB

/-!
# Data races

Which memory an event reads and writes, and what a data race is ([intro.races] of the C++
standard): two conflicting accesses neither of which happens before the other.
-/

namespace Joque

/-- Memory more than one event may access. -/
inductive Loc where
  /-- the reference `n->t` and the name of a node (include/joque/dag.hpp) -/
  | ref (n : Node)
  /-- the marks of a node: `invalidated`, `started`, `done`, `failed` -/
  | marks (n : Node)
  /-- a task: its name, its resources, the pointer to its job -/
  | task (t : TaskId)
  /-- the job object of a task -/
  | job (t : TaskId)
  /-- the state shared by the thread of a node and its `std::future` -/
  | result (n : Node)
  /-- everything else the library works with: the list of nodes to process, the coroutines, the
  resources in use, the record of the execution, and the visitor -/
  | engine
  deriving DecidableEq, Repr

/-- An access: the location, and whether it is written. -/
structure Access where
  loc : Loc
  write : Bool
  deriving DecidableEq, Repr

def Loc.read (l : Loc) : Access := ⟨l, false⟩
def Loc.wr (l : Loc) : Access := ⟨l, true⟩

/-- What the library accesses at an event, up to the next event of the same thread.

`is_invalidated` and `run` are not `const` in `job_iface` (include/joque/job.hpp:15-18), so both are
taken to write the job object.  A thread made by `std::async` reads `n->t` and the task, calls the
job, and stores its result (src/exec.cpp:134-155). Everything else is done by the thread that calls
`tick()`: it is taken to read every task and to write every mark of the dag, at every event. -/
def accesses (g : Dag) : Event → List Access
  | .jobBegin n b => (if b then [Loc.engine.wr] else []) ++
      [(Loc.ref n).read, (Loc.task (g.task n)).read, (Loc.job (g.task n)).wr]
  | .jobEnd n => [(Loc.ref n).read, (Loc.task (g.task n)).read, (Loc.job (g.task n)).wr,
      (Loc.result n).wr]
  | e => Loc.engine.wr :: g.nodes.flatMap (fun n =>
        [(Loc.ref n).read, (Loc.task (g.task n)).read, (Loc.marks n).wr]) ++
      match e with
      | .jobInval n _ _ => [(Loc.job (g.task n)).wr]
      | .launch n => [(Loc.result n).wr]
      | .runLog n _ => [(Loc.result n).wr]
      | _ => []

/-- Two accesses conflict: the same location, and one of them writes. -/
def Conflict (a b : Access) : Prop := a.loc = b.loc ∧ (a.write = true ∨ b.write = true)

/-- The `i`-th and the `j`-th event of a history are a data race. -/
def DataRace (g : Dag) (tr : List Event) (i j : Nat) : Prop :=
  ∃ e f, tr[i]? = some e ∧ tr[j]? = some f ∧ i ≠ j ∧
    (∃ a ∈ accesses g e, ∃ b ∈ accesses g f, Conflict a b) ∧
    ¬ HappensBefore tr i j ∧ ¬ HappensBefore tr j i

end Joque
