import Verif.Model.Format
import Verif.Model.Exec

/-!
# The default visitor (src/print_exec_visitor.cpp)

Its output is a list of items; the texts of start, end and summary lines are those of `Model/Format`.
-/

namespace Joque

/-- One thing printed (src/print_exec_visitor.cpp:28-123). -/
inductive Item where
  /-- "Task … has no job" on stderr (src/print_exec_visitor.cpp:31) -/
  | noJob (n : Node)
  /-- the nodes of a cycle on stderr (36-38) -/
  | cycle (c : List Node)
  /-- "Job … got invalidated" with the log (49-50) -/
  | invalidated (n : Node) (log : Str)
  /-- "Task … invalidated by …" (61-62) -/
  | invalidatedBy (n m : Node)
  /-- "Job … run log" with the log (70-71) -/
  | runLog (n : Node) (log : Str)
  /-- `format_status` with the name of `n`, and back to the start of the line (80-82, 107-109) -/
  | status (er : ExecRecord) (n : Node)
  /-- `format_run_end` and a line break (97-98) -/
  | runEnd (er : ExecRecord) (r : RunRecord)
  /-- `format_nested` of the output of `r` (102) -/
  | nested (r : RunRecord)
  /-- `format_exec_end` and a line break (120-122) -/
  | summary (er : ExecRecord)
  deriving DecidableEq, Repr

/-- `struct print_exec_visitor::impl` (src/print_exec_visitor.cpp:15-19); `queued` is sorted, a
`std::set` of pointers -/
structure Visitor where
  verbose : Bool
  queued : List Node
  deriving DecidableEq, Repr

/-- insert into a `std::set` of pointers (src/print_exec_visitor.cpp:79) -/
def setInsert (n : Node) : List Node → List Node
  | [] => [n]
  | m :: l => if n < m then n :: m :: l else if n = m then m :: l else m :: setInsert n l

/-- What the visitor can look up through the references it is given
(src/print_exec_visitor.cpp:30,78,96). -/
structure VisitEnv where
  hidden : TaskId → Bool
  task : Node → TaskId
  hasJob : Node → Bool

/-- `before_run` (src/print_exec_visitor.cpp:74-84) -/
def Visitor.beforeRun (E : VisitEnv) (v : Visitor) (er : ExecRecord) (n : Node) : Visitor × List Item :=
  if !E.hidden (E.task n) || v.verbose then
    ({ v with queued := setInsert n v.queued }, [.status er n])
  else (v, [])

/-- `after_run` with a record (src/print_exec_visitor.cpp:96-110) -/
def Visitor.afterRun (E : VisitEnv) (v : Visitor) (er : ExecRecord) (r : RunRecord) (n : Node) :
    Visitor × List Item :=
  let q := v.queued.filter (· ≠ n)
  ({ v with queued := q },
    (if !E.hidden r.t || v.verbose || r.retcode ≠ 0 then [.runEnd er r] else [])
      ++ (if v.verbose || r.retcode ≠ 0 then [.nested r] else [])
      ++ (match q with
        | [] => []
        | m :: _ => [.status er m]))

/-- the member functions of `print_exec_visitor` (src/print_exec_visitor.cpp:28-124) -/
def Visitor.on (E : VisitEnv) (v : Visitor) : Event → Visitor × List Item
  | .nodeEnque n => (v, if E.hasJob n then [] else [.noJob n])
  | .detectedCycle c => (v, [.cycle c])
  | .jobInval n i log => (v, if v.verbose && i = .invalid then [.invalidated n log] else [])
  | .depInval n m => (v, if v.verbose then [.invalidatedBy n m] else [])
  | .runLog n log => (v, if v.verbose then [.runLog n log] else [])
  | .beforeRun er n => v.beforeRun E er n
  | .afterRun er r n => v.afterRun E er r n
  | .afterExecution er => ({ v with queued := [] }, [.summary er])
  | .resumed | .onTick _ | .launch _ | .jobBegin _ _ | .jobEnd _ => (v, [])

/-- all calls of one execution, in order (src/exec.cpp calls them on one visitor) -/
def Visitor.onAll (E : VisitEnv) (v : Visitor) : List Event → Visitor × List Item
  | [] => (v, [])
  | e :: es =>
    let p := v.on E e
    let q := Visitor.onAll E p.1 es
    (q.1, p.2 ++ q.2)

/-- A new visitor (src/print_exec_visitor.cpp:21-26). -/
def Visitor.init (verbose : Bool) : Visitor := { verbose := verbose, queued := [] }

/-! ## The text of an item -/

/-- What goes into the text besides the item (src/print_exec_visitor.cpp:28-123). -/
structure TextEnv where
  /-- `(*n)->name` -/
  name : Node → Str
  /-- duration of a record with its unit (src/format.cpp:196-199) -/
  shown : RunRecord → Str
  /-- the readings behind `start` and `end` -/
  clock : Nat → Int

/-- hide the cursor, back to the start of the line, show the cursor
(src/print_exec_visitor.cpp:81,108,120) -/
def carriage : Str := [escC, '[', '?', '2', '5', 'l', '\r', escC, '[', '?', '2', '5', 'h']

/-- What an item writes to `std::cout`, `hms` being the time of day; `none`: undefined behaviour
(see `formatLine`).  (src/print_exec_visitor.cpp:49-50,61-62,70-71,80-81,97-98,102,107-108,120-122) -/
def Item.stdout (T : TextEnv) (hms : Str) : Item → Option Str
  | .noJob _ | .cycle _ => some []
  | .invalidated n log => some ("Job ".toList ++ T.name n ++ " got invalidated: \n".toList ++ log ++ ['\n'])
  | .invalidatedBy n m => some ("Task ".toList ++ T.name n ++ " invalidated by ".toList ++ T.name m ++ ['\n'])
  | .runLog n log => some ("Job ".toList ++ T.name n ++ " run log: \n".toList ++ log ++ ['\n'])
  | .status er n => (formatStatus hms er (T.name n)).map (· ++ carriage)
  | .runEnd er r => (formatRunEnd hms T.shown er r).map (· ++ ['\n'])
  | .nested r => some (formatNested (List.replicate 8 ' ') r.output)
  | .summary er => (formatExecEnd hms T.clock er).map (carriage ++ · ++ ['\n'])

/-- What an item writes to `std::cerr` (src/print_exec_visitor.cpp:31,36-38). -/
def Item.stderr (T : TextEnv) : Item → Str
  | .noJob n => "Task ".toList ++ T.name n ++ " has no job\n".toList
  | .cycle c => "Cycle between nodes detected:\n".toList ++
      c.flatMap (fun n => '\t' :: (T.name n ++ ['\n']))
  | _ => []

/-- `std::cerr` after the given items (src/print_exec_visitor.cpp writes them one after the other) -/
def stderrOf (T : TextEnv) (l : List Item) : Str := l.flatMap (Item.stderr T)

/-- `std::cout` after the given items, each with its time of day
(src/print_exec_visitor.cpp writes them one after the other) -/
def stdoutOf (T : TextEnv) : List (Str × Item) → Option Str
  | [] => some []
  | (hms, i) :: l =>
    (i.stdout T hms).bind fun a => (stdoutOf T l).map (a ++ ·)

end Joque
