import Verif.Model.Exec
import Verif.Spec.Race

/-!
# Data races between executions on different threads

The program is taken not to synchronise its threads while the executions go on.
-/

namespace Joque

/-- what execution `k` did -/
def part (k : Nat) (log : List (Nat × Event)) : List Event :=
  log.filterMap fun p => if p.1 = k then some p.2 else none

/-- Memory of a program with several executions: what one execution has for itself, the tasks and
their jobs, and the state of the visitors. -/
inductive PLoc where
  | own (k : Nat) (l : Loc)
  | task (t : TaskId)
  | job (t : TaskId)
  | visitor (v : Nat)
  deriving DecidableEq, Repr

structure PAccess where
  loc : PLoc
  write : Bool
  deriving DecidableEq, Repr

/-- a location execution `k` accesses, as a location of the program: tasks and jobs are objects of the
program, the rest belongs to the execution -/
def Loc.inProgram (k : Nat) : Loc → PLoc
  | .task t => .task t
  | .job t => .job t
  | l => .own k l

/-- the event is a call of the visitor -/
def Event.callback : Event → Bool
  | .resumed | .launch _ | .jobBegin _ _ | .jobEnd _ => false
  | _ => true

/-- Several executions: what each of them executes, the visitor object it is given, and the
callbacks in which that visitor uses state of its own (which it is taken to modify). -/
structure Program where
  cfg : Nat → Cfg
  vis : Nat → Nat
  uses : Nat → Event → Bool

/-- What is accessed at an event of an execution.  The streams `std::cout` and `std::cerr` are left
out: using them from several threads is no data race ([iostream.objects.overview]). -/
def Program.accesses (P : Program) (p : Nat × Event) : List PAccess :=
  (Joque.accesses (P.cfg p.1).dag p.2).map (fun a => ⟨a.loc.inProgram p.1, a.write⟩) ++
    if p.2.callback && P.uses p.1 p.2 then [⟨.visitor (P.vis p.1), true⟩] else []

/-- Two events have conflicting accesses. -/
def Program.Conflict (P : Program) (p q : Nat × Event) : Prop :=
  ∃ a ∈ P.accesses p, ∃ b ∈ P.accesses q, a.loc = b.loc ∧ (a.write = true ∨ b.write = true)

/-- the position of an entry in the history of the execution it belongs to -/
def place (k : Nat) (log : List (Nat × Event)) (i : Nat) : Nat := (part k (log.take i)).length

/-- The order the memory model gives: only within an execution, since nothing synchronises two of
them. -/
def ProgramOrder (log : List (Nat × Event)) (i j : Nat) : Prop :=
  ∃ k e f, log[i]? = some (k, e) ∧ log[j]? = some (k, f) ∧
    HappensBefore (part k log) (place k log i) (place k log j)

/-- The `i`-th and the `j`-th entry of the history of a program are a data race. -/
def Program.Race (P : Program) (log : List (Nat × Event)) (i j : Nat) : Prop :=
  ∃ p q, log[i]? = some p ∧ log[j]? = some q ∧ i ≠ j ∧ P.Conflict p q ∧
    ¬ ProgramOrder log i j ∧ ¬ ProgramOrder log j i

/-- The callbacks in which `print_exec_visitor` uses its set `queued`: `before_run` of a task it
shows, `after_run`, `after_execution`. -/
def printUses (shown : Node → Bool) : Event → Bool
  | .beforeRun _ n => shown n
  | .afterRun _ _ _ => true
  | .afterExecution _ => true
  | _ => false

end Joque
