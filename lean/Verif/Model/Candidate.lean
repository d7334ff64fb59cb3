import Verif.Model.Basic

/-!
# Candidate search (src/exec.cpp:37-98)
-/

namespace Joque

/-- The mutable flags of `node_content` (include/joque/dag.hpp:71-80), for all nodes. -/
structure Flags where
  inval : Node → Inval
  started : Node → Bool
  done : Node → Bool
  failed : Node → Bool

/-- `all_done` (src/exec.cpp:37-43). -/
def allDone (f : Flags) (es : List Edge) : Bool := es.all (fun e => f.done e.tgt)

/-- `any_dep_failed` (src/exec.cpp:45-52). -/
def anyDepFailed (f : Flags) (es : List Edge) : Bool :=
  (filterEdges .requires es).any (fun e => f.failed e.tgt)

/-- `any_resource_used` (src/exec.cpp:54-60). -/
def anyResourceUsed (resources : List Res) (used : List Res) : Bool :=
  resources.any (fun r => r ∈ used)

/-- The `for (const dag_edge& e : es)` loop of `find_candidate` (src/exec.cpp:73-78). The result
is the returned `dag_node*` (if non-null) and the updated `seen`. -/
def candLoop (rec : Node → List Node → Option (Option Node × List Node)) :
    List Edge → List Node → Option (Option Node × List Node)
  | [], seen => some (none, seen)
  | e :: es, seen =>
    match rec e.tgt seen with
    | none => none
    | some (some r, seen') => some (some r, seen')
    | some (none, seen') => candLoop rec es seen'

/-- `find_candidate(dag_node&, …)` (src/exec.cpp:62-84); fuel as in `checkForCycle`. `res` gives
`n->t.resources`. -/
def findCand (g : Dag) (res : Node → List Res) (f : Flags) (used : List Res) :
    Nat → Node → List Node → Option (Option Node × List Node)
  | 0, _, _ => none
  | fuel + 1, n, seen =>
    if f.started n || f.done n || decide (n ∈ seen) then some (none, seen)
    else
      let es := filterEdges .after (g.outEdges n)
      match candLoop (findCand g res f used fuel) es (n :: seen) with
      | none => none
      | some (some r, seen') => some (some r, seen')
      | some (none, seen') =>
        if !allDone f es || anyResourceUsed (res n) used then some (none, seen')
        else some (some n, seen')

/-- `for (dag_node* cand : nodes)` in `find_candidate(std::set&, …)` (src/exec.cpp:92-96). -/
def findCandTop (g : Dag) (res : Node → List Res) (f : Flags) (used : List Res) (fuel : Nat) :
    List Node → List Node → Option (Option Node)
  | [], _ => some none
  | c :: cs, seen =>
    match findCand g res f used fuel c seen with
    | none => none
    | some (some r, _) => some (some r)
    | some (none, seen') => findCandTop g res f used fuel cs seen'

/-- `find_candidate(std::set<dag_node*>&, …)` (src/exec.cpp:86-98). Outer `none`: out of fuel
(shown impossible); inner `none`: `nullptr`. -/
def findCandidate (g : Dag) (res : Node → List Res) (f : Flags) (used : List Res)
    (toProcess : List Node) : Option (Option Node) :=
  findCandTop g res f used (g.nodes.length + 1) toProcess []

end Joque
