import Verif.Model.Basic

/-!
# Cycle check (src/exec.cpp:232-281)

The recursion of `check_for_cycle` follows graph edges; it is written with a fuel argument, and
`none` means "fuel exhausted".  `Proof/Cycle` shows that fuel `nodes.length + 1` is never
exhausted, so the fuel is not observable.
-/

namespace Joque

/-- The by-reference arguments `seen`, `stack` of `check_for_cycle` (src/exec.cpp:243-247) and
the calls made to `vis.on_detected_cycle` (src/exec.cpp:264), oldest first.  `seen` is only
used for membership, so its order is irrelevant. -/
structure CSt where
  seen : List Node
  stack : List Node
  reports : List (List Node)
  deriving DecidableEq, Repr

/-- `get_cycle` (src/exec.cpp:232-241): the part of `stack` starting at the first `n`. -/
def getCycle (stack : List Node) (n : Node) : List Node := stack.dropWhile (fun m => m ≠ n)

/-- The `for (auto& e : es)` loop of `check_for_cycle` (src/exec.cpp:257-268) for node `n`;
`rec` is the recursive call.  The result is the returned `dag_node*` (`none` = `nullptr`). -/
def cycleLoop (rec : Node → CSt → Option (Option Node × CSt)) (n : Node) :
    List Edge → CSt → Option (Option Node × CSt)
  | [], s => some (none, { s with stack := s.stack.dropLast })
  | e :: es, s =>
    match rec e.tgt s with
    | none => none
    | some (none, s') => cycleLoop rec n es s'
    | some (some p, s') =>
      if p ≠ n then some (some p, s')
      else some (some p, { s' with reports := s'.reports ++ [getCycle s'.stack p] })

/-- `check_for_cycle` (src/exec.cpp:243-269). -/
def checkForCycle (g : Dag) : Nat → Node → CSt → Option (Option Node × CSt)
  | 0, _, _ => none
  | fuel + 1, n, s =>
    if n ∈ s.seen then
      some (if n ∈ s.stack then some n else none, s)
    else
      cycleLoop (checkForCycle g fuel) n (filterEdges .after (g.outEdges n))
        { s with seen := n :: s.seen, stack := s.stack ++ [n] }

/-- Outcome of `has_cycle` (src/exec.cpp:270-281). -/
inductive CycleOut where
  /-- returned value and the reported cycles -/
  | result (found : Bool) (reports : List (List Node))
  /-- `assert(stack.empty())` failed (src/exec.cpp:277) -/
  | assertFailed
  /-- model fuel exhausted (shown impossible) -/
  | outOfFuel
  deriving DecidableEq, Repr

/-- `std::ranges::any_of(to_process, …)` in `has_cycle` (src/exec.cpp:276-280). -/
def hasCycleLoop (g : Dag) (fuel : Nat) : List Node → CSt → CycleOut
  | [], s => .result false s.reports
  | n :: ns, s =>
    if s.stack ≠ [] then .assertFailed
    else match checkForCycle g fuel n s with
      | none => .outOfFuel
      | some (some _, s') => .result true s'.reports
      | some (none, s') => hasCycleLoop g fuel ns s'

/-- `has_cycle` (src/exec.cpp:270-281). -/
def hasCycle (g : Dag) (toProcess : List Node) : CycleOut :=
  hasCycleLoop g (g.nodes.length + 1) toProcess { seen := [], stack := [], reports := [] }

end Joque
