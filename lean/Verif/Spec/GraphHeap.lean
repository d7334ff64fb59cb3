import Verif.Model.GraphHeap

/-!
# What graphs should be

Reference: per graph a sequence of nodes; all edges, newest first, with their identity.
-/

namespace Joque

structure Graphs where
  graphs : Nat → Prop
  seq : Nat → List Nat
  edges : List (Nat × Edge)

def Graphs.init : Graphs := { graphs := fun _ => False, seq := fun _ => [], edges := [] }

/-- the node exists -/
def Graphs.Alive (a : Graphs) (n : Nat) : Prop := ∃ g, n ∈ a.seq g

/-- contract: objects used exist, objects created are new -/
def GOp.Pre (a : Graphs) : GOp → Prop
  | .newGraph g => ¬ a.graphs g
  | .emplace g n => a.graphs g ∧ ¬ a.Alive n
  | .addEdge e s t _ => e ∉ a.edges.map Prod.fst ∧ a.Alive s ∧ a.Alive t
  | .clearIf g _ => a.graphs g
  | .moveGraph g h => ¬ a.graphs g ∧ a.graphs h
  | .destroyGraph g => a.graphs g

/-- nodes an operation removes -/
def GOp.gone (a : Graphs) : GOp → List Nat
  | .clearIf g f => (a.seq g).filter f
  | .destroyGraph g => a.seq g
  | _ => []

/-- the edge has an end among the nodes -/
def touches (ns : List Nat) (p : Nat × Edge) : Bool :=
  decide (p.2.src ∈ ns) || decide (p.2.tgt ∈ ns)

/-- objects an operation has to free: the nodes removed and the edges touching them -/
def GOp.frees (a : Graphs) (o : GOp) : List Obj :=
  (o.gone a).map .node ++ ((a.edges.filter (touches (o.gone a))).map fun p => .edge p.1)

/-- meaning of the operations -/
def GOp.apply (a : Graphs) : GOp → Graphs
  | .newGraph g => { a with graphs := fun x => x = g ∨ a.graphs x, seq := fset a.seq g [] }
  | .emplace g n => { a with seq := fset a.seq g (n :: a.seq g) }
  | .addEdge e s t k => { a with edges := (e, ⟨s, t, k⟩) :: a.edges }
  | .clearIf g f =>
    { a with seq := fset a.seq g ((a.seq g).filter (fun n => !f n))
             edges := a.edges.filter (fun p => !touches ((a.seq g).filter f) p) }
  | .moveGraph g h =>
    { a with graphs := fun x => x = g ∨ a.graphs x, seq := fset (fset a.seq g (a.seq h)) h [] }
  | .destroyGraph g =>
    { graphs := fun x => x ≠ g ∧ a.graphs x, seq := fset a.seq g []
      edges := a.edges.filter (fun p => !touches (a.seq g) p) }

def GOk : Graphs → List GOp → Prop
  | _, [] => True
  | a, o :: os => o.Pre a ∧ GOk (o.apply a) os

def GOp.run (a : Graphs) (os : List GOp) : Graphs := os.foldl GOp.apply a

/-- objects an operation allocates -/
def GOp.creates : GOp → List Obj
  | .emplace _ n => [.node n]
  | .addEdge e _ _ _ => [.edge e]
  | _ => []

/-- the object exists -/
def Graphs.Exists (a : Graphs) : Obj → Prop
  | .node n => a.Alive n
  | .edge e => e ∈ a.edges.map Prod.fst

end Joque
