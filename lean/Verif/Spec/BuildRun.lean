import Verif.Model.Exec
import Verif.Spec.Process
import Verif.Spec.Trace

/-!
# Builds: executions whose jobs are processes

What the processes of one execution do to the file system, seen along the history of the execution.
-/

namespace Joque

/-- the files a process writes -/
def Process.writes (p : Process) : List Str := p.output ++ p.retcodeFile.toList

/-- The processes of a dag fit together: no file is written by two of them, the retcode file is not
an output, and an input is either written by none, or an output of a task that is a dependency. -/
structure Plan (g : Dag) (proc : Node → Process) : Prop where
  disjoint : ∀ n ∈ g.nodes, ∀ m ∈ g.nodes, n ≠ m → ∀ q ∈ (proc n).writes, q ∉ (proc m).writes
  retcode : ∀ n ∈ g.nodes, ∀ f, (proc n).retcodeFile = some f → f ∉ (proc n).output
  inputs : ∀ n ∈ g.nodes, ∀ q ∈ (proc n).input, (∀ m ∈ g.nodes, q ∉ (proc m).writes) ∨
    ∃ m ∈ g.nodes, q ∈ (proc m).output ∧ AfterEdge g n m ∧ HasEdge g .invalidatedBy n m
  hasInput : ∀ n ∈ g.nodes, (proc n).input ≠ []
  hasOutput : ∀ n ∈ g.nodes, (proc n).output ≠ []

/-- `fs i` is the file system after the first `i` events of the history `tr`; event `i` happens at
`clock i`. -/
structure BuildRun (g : Dag) (outcome : Node → JobOut) (proc : Node → Process) (tr : List Event)
    (clock : Nat → Int) (fs : Nat → FS) : Prop where
  /-- the clock of the file system tells events apart -/
  strict : ∀ i j, i < j → clock i < clock j
  /-- everything there was written before -/
  old : ∀ q f, fs 0 q = some f → f.time < clock 0
  /-- all inputs nobody writes are there -/
  sources : ∀ n ∈ g.nodes, ∀ q ∈ (proc n).input, (∀ m ∈ g.nodes, q ∉ (proc m).writes) →
    (fs 0 q).isSome
  /-- a file changes only while a process is executing that writes it, and gets the current time -/
  change : ∀ i < tr.length, ∀ q, fs (i + 1) q ≠ fs i q →
    (∃ n, Running (tr.take i) n ∧ q ∈ (proc n).writes) ∧ ∀ f, fs (i + 1) q = some f → f.time = clock i
  /-- a job is the execution of its process; a child that succeeds has written all its outputs -/
  runs : ∀ i n, tr[i]? = some (.jobEnd n) → ∃ (os : POS) (before : FS),
    outcome n = ((proc n).run os before).1 ∧
    (∀ q ∈ (proc n).writes, fs (i + 1) q = ((proc n).run os before).2 q) ∧
    (os.Completed → os.exit = 0 → os.canWrite = true ∧
      ∀ o ∈ (proc n).output, ∃ f, os.effect before o = some f ∧
        ∀ j b, tr[j]? = some (.jobBegin n b) → clock j < f.time)

/-- the tasks are asked about the file system at the beginning of the execution -/
def AsksAt (C : Cfg) (proc : Node → Process) (tf : TimeFmt) (fs : FS) : Prop :=
  ∀ n ∈ C.dag.nodes, C.ask n = .answer ((proc n).isInvalidated tf fs)

end Joque
