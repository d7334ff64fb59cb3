import Verif.Model.Event

/-! # What is left of an execution when times, ticks and threads are forgotten -/

namespace Joque

def RunRecord.untimed (r : RunRecord) : RunRecord := { r with start := 0, «end» := 0 }

def ExecRecord.untimed (e : ExecRecord) : ExecRecord := { e with runs := e.runs.map RunRecord.untimed }

/-- Resumptions, `on_tick` and the creation of threads are dropped, and the thread of a job is
forgotten. -/
def Event.untimed : Event → Option Event
  | .resumed => none
  | .onTick _ => none
  | .launch _ => none
  | .jobBegin n _ => some (.jobBegin n true)
  | .beforeRun e n => some (.beforeRun e.untimed n)
  | .afterRun e r n => some (.afterRun e.untimed r.untimed n)
  | .afterExecution e => some (.afterExecution e.untimed)
  | e => some e

def untimed (tr : List Event) : List Event := tr.filterMap Event.untimed

end Joque
