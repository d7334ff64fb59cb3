import Verif.Model.IList
import Verif.Model.Basic

/-!
# The graph as linked objects on the heap (include/joque/bits/dag.hpp, include/joque/dag.hpp:48-54)

A node is in the node list of its graph (`lheader_`), an edge is in the out list of its source
(`lheader_`) and in the in list of its target (`lrheader_`).  So there are three list spaces; the
heads of the last two are the members `out_edges_`, `in_edges_` of nodes, named by the node.
-/

namespace Joque

/-- Heap objects (include/joque/bits/dag.hpp:25-70,72-142). -/
inductive Obj where
  | node (n : Nat)
  | edge (e : Nat)
  deriving DecidableEq, Repr

/-- Heap of a program that uses graphs (include/joque/bits/dag.hpp:25-188). -/
structure GH where
  /-- headers `gnode::lheader_` and `graph::nodes_` (include/joque/bits/dag.hpp:141,187) -/
  N : LS
  /-- headers `gedge::lheader_` and `gnode::out_edges_` (include/joque/bits/dag.hpp:68,138) -/
  O : LS
  /-- headers `gedge::lrheader_` and `gnode::in_edges_` (include/joque/bits/dag.hpp:69,139) -/
  I : LS
  /-- `gedge::content_` (include/joque/bits/dag.hpp:66) -/
  ec : Nat → Edge
  /-- objects given back by `delete`, in order -/
  freed : List Obj

/-- No graph, node or edge exists (include/joque/bits/dag.hpp:25-188). -/
def GH.empty : GH :=
  { N := LS.empty, O := LS.empty, I := LS.empty, ec := fun _ => ⟨0, 0, .after⟩, freed := [] }

namespace GH

/-- `delete e` for an edge: members are destroyed in reverse order of declaration
(include/joque/bits/dag.hpp:66-69). -/
def deleteEdge (s : GH) (e : Nat) : Option GH :=
  (s.I.destruct (.node e)).bind fun I =>
  (s.O.destruct (.node e)).bind fun O =>
  some { s with I := I, O := O, freed := s.freed ++ [.edge e] }

/-- `delete n` for a node: `lheader_`, `in_edges_`, `out_edges_` are destroyed in this order
(include/joque/bits/dag.hpp:136-141); `~list` deletes all elements (list.hpp:369-373). -/
def deleteNode (fuel : Nat) (s : GH) (n : Nat) : Option GH :=
  (s.N.destruct (.node n)).bind fun N =>
  (LS.deleteAll GH.I deleteEdge n fuel { s with N := N }).bind fun s =>
  (s.I.destruct (.head n)).bind fun I =>
  (LS.deleteAll GH.O deleteEdge n fuel { s with I := I }).bind fun s =>
  (s.O.destruct (.head n)).bind fun O =>
  some { s with O := O, freed := s.freed ++ [.node n] }

/-- `graph g;` (include/joque/bits/dag.hpp:152,187). -/
def newGraph (s : GH) (g : Nat) : GH := { s with N := s.N.construct (.head g) }

/-- `g.emplace(...)` with the node at address `n` (include/joque/bits/dag.hpp:180-184,
list.hpp:214-222). -/
def emplace (s : GH) (g n : Nat) : Option GH :=
  ((s.N.construct (.node n)).linkNext (.head g) n).map fun N =>
    { s with N := N, O := s.O.construct (.head n), I := s.I.construct (.head n) }

/-- `add_edge(a, b, kind)` with the edge at address `e` (include/joque/dag.hpp:48-54). -/
def addEdge (s : GH) (e a b : Nat) (k : EKind) : Option GH :=
  ((s.O.construct (.node e)).linkNext (.head a) e).bind fun O =>
  ((s.I.construct (.node e)).linkNext (.head b) e).map fun I =>
    { s with O := O, I := I, ec := fset s.ec e ⟨a, b, k⟩ }

/-- `g.clear_if(f)` (include/joque/bits/dag.hpp:175-178). -/
def clearIf (fuel : Nat) (s : GH) (g : Nat) (f : Nat → Bool) : Option GH :=
  (s.N.begin' g).bind fun it => LS.clearIf GH.N (deleteNode fuel) f fuel it s

/-- `~graph()`: its member `nodes_` (include/joque/bits/dag.hpp:187, list.hpp:369-373). -/
def destroyGraph (fuel : Nat) (s : GH) (g : Nat) : Option GH :=
  (LS.deleteAll GH.N (deleteNode fuel) g fuel s).bind fun s =>
  (s.N.destruct (.head g)).map fun N => { s with N := N }

/-- `graph g{std::move(h)}` (include/joque/bits/dag.hpp:154, list.hpp:144,52-55). -/
def moveConstruct (s : GH) (g h : Nat) : Option GH :=
  (s.N.moveConstruct (.head g) (.head h)).map fun N => { s with N := N }

/-- `g = std::move(h)` (include/joque/bits/dag.hpp:156, list.hpp:146,56-69). -/
def moveAssign (s : GH) (g h : Nat) : Option GH :=
  (s.N.moveAssign (.head g) (.head h)).map fun N => { s with N := N }

/-- nodes in iteration order (include/joque/bits/dag.hpp:158-173) -/
def nodes (s : GH) (fuel g : Nat) : Option (List Nat) := s.N.toList fuel g

/-- contents of `n.out_edges()` in iteration order (include/joque/bits/dag.hpp:113-121) -/
def outEdges (s : GH) (fuel n : Nat) : Option (List Edge) := (s.O.toList fuel n).map (·.map s.ec)

/-- contents of `n.in_edges()` in iteration order (include/joque/bits/dag.hpp:123-131) -/
def inEdges (s : GH) (fuel n : Nat) : Option (List Edge) := (s.I.toList fuel n).map (·.map s.ec)

end GH

/-- What a program does with graphs (include/joque/bits/dag.hpp:152-184, include/joque/dag.hpp:48-54). -/
inductive GOp where
  | newGraph (g : Nat)
  | emplace (g n : Nat)
  | addEdge (e a b : Nat) (k : EKind)
  | clearIf (g : Nat) (f : Nat → Bool)
  | moveGraph (g h : Nat)
  | destroyGraph (g : Nat)

/-- One such operation (include/joque/bits/dag.hpp:152-184); `none` = undefined behaviour, `fuel` bounds
loops. -/
def GH.op (fuel : Nat) (s : GH) : GOp → Option GH
  | .newGraph g => some (s.newGraph g)
  | .emplace g n => s.emplace g n
  | .addEdge e a b k => s.addEdge e a b k
  | .clearIf g f => s.clearIf fuel g f
  | .moveGraph g h => s.moveConstruct g h
  | .destroyGraph g => s.destroyGraph fuel g

/-- A program: such operations in sequence (include/joque/bits/dag.hpp:152-184). -/
def GH.ops (fuel : Nat) : List GOp → GH → Option GH
  | [], s => some s
  | o :: os, s => (s.op fuel o).bind (GH.ops fuel os)

/-! ## Programs that build one dag -/

/-- building a dag: `emplace` a node or `add_edge`, with the addresses `new` returns
(include/joque/bits/dag.hpp:180-184, include/joque/dag.hpp:48-54, include/joque/bits/list.hpp:219) -/
inductive DOp where
  | emplace (a : Node) (name : Str) (t : TaskId)
  | addEdge (e : Nat) (s t : Node) (k : EKind)

/-- on the dag as the rest of the model sees it (include/joque/bits/dag.hpp:180-184, include/joque/dag.hpp:48-54) -/
def DOp.onDag (d : Dag) : DOp → Dag
  | .emplace a name t => d.emplace a name t
  | .addEdge _ s t k => d.addEdge s t k

/-- on the heap, graph at address `g` (include/joque/bits/dag.hpp:180-184, include/joque/dag.hpp:48-54) -/
def DOp.onHeap (g : Nat) : DOp → GOp
  | .emplace a _ _ => .emplace g a
  | .addEdge e s t k => .addEdge e s t k

end Joque
