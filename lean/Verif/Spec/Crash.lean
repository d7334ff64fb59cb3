import Verif.Spec.BuildRun

/-! # Vocabulary for interrupted builds -/

namespace Joque

/-- the job of `n` ended and returned 0 -/
def Succeeded (tr : List Event) (outcome : Node → JobOut) (n : Node) : Prop :=
  JobEnded tr n ∧ ∃ r, outcome n = .ret r ∧ r.retcode = some 0

/-- What a crash after the events `tr` leaves, if the files were `fs` after the last event: the files a
running process writes can be anything. -/
def CrashFS (proc : Node → Process) (tr : List Event) (fs crash : FS) : Prop :=
  ∀ q, (∀ n, Running tr n → q ∉ (proc n).writes) → crash q = fs q

/-- tasks are invalidated by others only through files -/
def Linked (g : Dag) (proc : Node → Process) : Prop :=
  ∀ n m, HasEdge g .invalidatedBy n m → ∃ q ∈ (proc m).output, q ∈ (proc n).input

end Joque
