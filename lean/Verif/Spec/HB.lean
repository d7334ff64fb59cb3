import Mathlib.Logic.Relation
import Verif.Spec.Trace

/-!
# Synchronisation between threads

The C++ memory model orders two actions of different threads only through synchronisation.  Here
that is: creating a thread with `std::async`, and a shared state becoming ready before
`std::future::get` returns.  Everything but the jobs of worker threads happens on the control
thread, i.e. in calls of `exec_coro::tick`; the caller is responsible for ordering these.
-/

namespace Joque

/-- `e` happens on the control thread (in the history `tr`) -/
def OnControl (tr : List Event) : Event → Prop
  | .jobBegin _ b => b = true
  | .jobEnd n => .jobBegin n true ∈ tr
  | _ => True

/-- The `i`-th event of `tr` is ordered directly before the `j`-th: both on the control thread;
creation of a thread before its start; start of a job before its end, on the same thread; end of
the thread's function before its result is received. -/
inductive SyncStep (tr : List Event) (i j : Nat) : Prop where
  | program (e f : Event) (hi : tr[i]? = some e) (hj : tr[j]? = some f) (hij : i < j)
      (he : OnControl tr e) (hf : OnControl tr f)
  | create (n : Node) (hi : tr[i]? = some (.launch n)) (hj : tr[j]? = some (.jobBegin n false))
      (hij : i < j)
  | job (n : Node) (b : Bool) (hi : tr[i]? = some (.jobBegin n b)) (hj : tr[j]? = some (.jobEnd n))
      (hij : i < j)
  | receive (n : Node) (log : Str) (hi : tr[i]? = some (.jobEnd n))
      (hj : tr[j]? = some (.runLog n log)) (hij : i < j)

/-- The `i`-th event of `tr` happens before the `j`-th, in the sense of the memory model. -/
def HappensBefore (tr : List Event) : Nat → Nat → Prop := Relation.TransGen (SyncStep tr)

end Joque
