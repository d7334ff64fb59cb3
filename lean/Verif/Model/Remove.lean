import Verif.Model.GraphHeap

/-! # Removing tasks from a dag -/

namespace Joque

/-- `dag.clear_if(f)` (include/joque/bits/dag.hpp:175-178, include/joque/bits/list.hpp:359-372): the nodes
`f` holds for are deleted, and with a node its edges, in both directions
(include/joque/bits/dag.hpp:70-131). -/
def Dag.clearIf (g : Dag) (f : Node → Bool) : Dag :=
  { g with
    nodes := g.nodes.filter (fun n => !f n)
    edges := g.edges.filter (fun e => !(decide (e.src ∈ g.nodes) && f e.src) &&
      !(decide (e.tgt ∈ g.nodes) && f e.tgt)) }

/-- making a dag by hand: `emplace`, `add_edge`, `clear_if`
(include/joque/bits/dag.hpp:175-184, include/joque/dag.hpp:48-54) -/
inductive ROp where
  | op (o : DOp)
  | remove (f : Node → Bool)

/-- on the dag as the rest of the model sees it (include/joque/bits/dag.hpp:175-184, include/joque/dag.hpp:48-54) -/
def ROp.onDag (d : Dag) : ROp → Dag
  | .op o => o.onDag d
  | .remove f => d.clearIf f

/-- on the heap, graph at address `g` (include/joque/bits/dag.hpp:175-184, include/joque/dag.hpp:48-54) -/
def ROp.onHeap (g : Nat) : ROp → GOp
  | .op o => o.onHeap g
  | .remove f => .clearIf g f

end Joque
