import Verif.Model.PrintVisitor

/-!
# A visitor used by several executions (src/print_exec_visitor.cpp)

`exec` uses the global `PRINT_VISITOR` unless told otherwise (include/joque/exec.hpp:43,52;
include/joque/print_exec_visitor.hpp:52), so its `queued` set outlives the nodes it points to.
Following a pointer to a node that was destroyed is undefined behaviour.
-/

namespace Joque

/-- The nodes whose `name` is read to print an item
(src/print_exec_visitor.cpp:31,38,49,61-62,70,80,107). -/
def Item.names : Item → List Node
  | .noJob n => [n]
  | .cycle c => c
  | .invalidated n _ => [n]
  | .invalidatedBy n m => [n, m]
  | .runLog n _ => [n]
  | .status _ n => [n]
  | .runEnd _ _ | .nested _ | .summary _ => []

/-- A call of a member function of the visitor (include/joque/exec_visitor.hpp:11-64): by which
execution (what can be looked up there), which nodes exist at that time, and which function. -/
structure VCall where
  env : VisitEnv
  alive : Node → Bool
  ev : Event

/-- What a visitor does in a sequence of calls (src/print_exec_visitor.cpp:28-124): its state and what
it printed; `none`: it read a node that does not exist any more. -/
def Visitor.calls (v : Visitor) : List VCall → Option (Visitor × List Item)
  | [] => some (v, [])
  | c :: cs =>
    let p := v.on c.env c.ev
    if p.2.all (fun i => i.names.all c.alive) then
      (Visitor.calls p.1 cs).map fun q => (q.1, p.2 ++ q.2)
    else none

end Joque
