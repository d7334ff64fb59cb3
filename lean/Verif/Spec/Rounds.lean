import Verif.Spec.BuildRun
import Verif.Spec.Incremental

/-!
# Changing files and executing processes, again and again
-/

namespace Joque

/-- the files of a process: its inputs, and its outputs with the retcode file -/
def filesOf (proc : Node → Process) : Footprint Str :=
  ⟨fun n q => q ∈ (proc n).input, fun n q => q ∈ (proc n).writes⟩

/-- contents of files -/
def FS.contents (fs : FS) (q : Str) : Option Str := (fs q).map PFile.content

section
variable (g : Dag) (proc : Node → Process) (tf : TimeFmt) (J : Commands Str (Option Str))

/-- a process that says it is up to date is right: its outputs are there, and fit the inputs -/
def RightAnswers (fs : FS) : Prop :=
  ∀ n ∈ g.nodes, ((proc n).isInvalidated tf fs).invalidated = false →
    (∀ o ∈ (proc n).output, (fs o).isSome) ∧ Fits (filesOf proc) J fs.contents n

/-- everything is there, fits, and is considered up to date -/
structure AllFit (fs : FS) : Prop where
  fresh : ∀ n ∈ g.nodes, ((proc n).isInvalidated tf fs).invalidated = false
  inputs : ∀ n ∈ g.nodes, ∀ i ∈ (proc n).input, (fs i).isSome
  outputs : ∀ n ∈ g.nodes, ∀ o ∈ (proc n).output, (fs o).isSome
  fits : ∀ n ∈ g.nodes, Fits (filesOf proc) J fs.contents n

/-- some files no task writes were replaced by, or are new, files not older than any output -/
def NewSources (a b : FS) : Prop :=
  ∀ q, b q ≠ a q → (∀ m ∈ g.nodes, q ∉ (proc m).writes) ∧
    ∃ f, b q = some f ∧ ∀ n ∈ g.nodes, ∀ o ∈ (proc n).output, ∀ fo, a o = some fo → fo.time ≤ f.time

/-- an execution of the dag, with any number of threads and in any schedule, in which nothing fails; it
finds the files `a` and leaves the files `b` -/
def GoodBuild (a b : FS) : Prop :=
  ∃ (C : Cfg) (ms : List Move) (clock : Nat → Int) (fs : Nat → FS), C.dag = g ∧ AsksAt C proc tf a ∧
    (exec C ms).phase = .finished ∧
    (∀ r ∈ recsOf (exec C ms).trace, r.status = .ok ∨ r.status = .skip) ∧
    fs 0 = a ∧ fs (exec C ms).trace.length = b ∧
    BuildRun C.dag C.outcome proc (exec C ms).trace clock fs ∧
    Workspace (filesOf proc) J C.outcome (exec C ms).trace fun i => (fs i).contents

/-- files are changed and the dag is executed, any number of times -/
inductive Rounds : FS → FS → Prop
  | none (a : FS) : Rounds a a
  | round {a b c d : FS} : Rounds a b → NewSources g proc b c → GoodBuild g proc tf J c d → Rounds a d

end

end Joque
