import Verif.Model.Cycle
import Verif.Model.Candidate
import Verif.Model.Inval

/-!
# What the scheduler's searches cost (src/exec.cpp:62-98,195-281)

The functions here follow the control flow of the functions of `Model/Cycle`, `Model/Candidate` and
`Model/Inval` (they call them to learn where it goes) and count what is done.
-/

namespace Joque

/-- What a search costs: calls of the recursive function, how deeply they are nested, and pointer
comparisons of linear searches (src/exec.cpp:62-84,243-269). -/
structure Cost where
  calls : Nat
  depth : Nat
  cmps : Nat
  deriving DecidableEq, Repr

/-- first the one, then the other (src/exec.cpp:73-78,257-266) -/
def Cost.seq (a b : Cost) : Cost := ⟨a.calls + b.calls, max a.depth b.depth, a.cmps + b.cmps⟩

/-- one call which makes `cmps` comparisons itself, and `a` inside (src/exec.cpp:62-84,243-269) -/
def Cost.call (cmps : Nat) (a : Cost) : Cost := ⟨a.calls + 1, a.depth + 1, a.cmps + cmps⟩

/-- nothing done (src/exec.cpp:73,257: no edges) -/
def Cost.zero : Cost := ⟨0, 0, 0⟩

/-- comparisons of `std::ranges::find( l, n )` (src/exec.cpp:250): up to the place of `n`, or all -/
def findCmps (l : List Node) (n : Node) : Nat := min (l.idxOf n + 1) l.length

/-- the loop of `check_for_cycle` (src/exec.cpp:257-266) -/
def cycleLoopCost (rec : Node → CSt → Option (Option Node × CSt)) (cost : Node → CSt → Cost) :
    List Edge → CSt → Cost
  | [], _ => .zero
  | e :: es, s =>
    match rec e.tgt s with
    | some (none, s') => (cost e.tgt s).seq (cycleLoopCost rec cost es s')
    | _ => cost e.tgt s

/-- `check_for_cycle` (src/exec.cpp:243-269) -/
def checkForCycleCost (g : Dag) : Nat → Node → CSt → Cost
  | 0, _, _ => .zero
  | fuel + 1, n, s =>
    Cost.call (findCmps s.stack n)
      (if n ∈ s.seen then .zero
      else cycleLoopCost (checkForCycle g fuel) (checkForCycleCost g fuel)
        (filterEdges .after (g.outEdges n)) { s with seen := n :: s.seen, stack := s.stack ++ [n] })

/-- `any_of` in `has_cycle` (src/exec.cpp:276-280) -/
def hasCycleLoopCost (g : Dag) (fuel : Nat) : List Node → CSt → Cost
  | [], _ => .zero
  | n :: ns, s =>
    match checkForCycle g fuel n s with
    | some (none, s') => (checkForCycleCost g fuel n s).seq (hasCycleLoopCost g fuel ns s')
    | _ => checkForCycleCost g fuel n s

/-- `has_cycle` (src/exec.cpp:270-281) -/
def hasCycleCost (g : Dag) (toProcess : List Node) : Cost :=
  hasCycleLoopCost g (g.nodes.length + 1) toProcess { seen := [], stack := [], reports := [] }

/-- the loop of `find_candidate` (src/exec.cpp:73-78) -/
def candLoopCost (rec : Node → List Node → Option (Option Node × List Node))
    (cost : Node → List Node → Cost) : List Edge → List Node → Cost
  | [], _ => .zero
  | e :: es, seen =>
    match rec e.tgt seen with
    | some (none, seen') => (cost e.tgt seen).seq (candLoopCost rec cost es seen')
    | _ => cost e.tgt seen

/-- `find_candidate(dag_node&, …)` (src/exec.cpp:62-84) -/
def findCandCost (g : Dag) (res : Node → List Res) (f : Flags) (used : List Res) :
    Nat → Node → List Node → Cost
  | 0, _, _ => .zero
  | fuel + 1, n, seen =>
    Cost.call 0
      (if f.started n || f.done n || decide (n ∈ seen) then .zero
      else candLoopCost (findCand g res f used fuel) (findCandCost g res f used fuel)
        (filterEdges .after (g.outEdges n)) (n :: seen))

/-- the loop over the remaining tasks (src/exec.cpp:92-96) -/
def findCandTopCost (g : Dag) (res : Node → List Res) (f : Flags) (used : List Res) (fuel : Nat) :
    List Node → List Node → Cost
  | [], _ => .zero
  | c :: cs, seen =>
    match findCand g res f used fuel c seen with
    | some (none, seen') =>
      (findCandCost g res f used fuel c seen).seq (findCandTopCost g res f used fuel cs seen')
    | _ => findCandCost g res f used fuel c seen

/-- `find_candidate(std::set<dag_node*>&, …)` (src/exec.cpp:86-98) -/
def findCandidateCost (g : Dag) (res : Node → List Res) (f : Flags) (used : List Res)
    (toProcess : List Node) : Cost :=
  findCandTopCost g res f used (g.nodes.length + 1) toProcess []

/-- `while (!to_propagate.empty())` (src/exec.cpp:212-229): the nodes extracted, in order -/
def propVisits (g : Dag) : Nat → List Node → List Node → PSt → List Node
  | 0, _, _, _ => []
  | _ + 1, [], _, _ => []
  | fuel + 1, p :: tp, seen, s =>
    let r := propEdges (p :: seen) (filterEdges .invalidatedBy (g.inEdges p)) tp s
    p :: propVisits g fuel r.1 (p :: seen) r.2

/-- the nodes `propagate_invalidation` extracts (src/exec.cpp:195-230) -/
def propagateVisits (g : Dag) (hasJob : Node → Bool) (ask : Node → InvalOut) (toProcess : List Node)
    (inval0 : Node → Inval) : List Node :=
  match queryLoop hasJob ask toProcess [] { inval := inval0, events := [] } with
  | .ok tp s => propVisits g (g.nodes.length + 1) tp tp s
  | _ => []

end Joque
