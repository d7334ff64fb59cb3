/-!
# Basic data of the model

C++ strings are modelled as lists of characters (bytes in C++; no function modelled here looks
at anything but equality of characters).  Objects identified by their address in C++
(`dag_node*`, `const task*`, `const resource*`) are modelled by their address, a natural number.
-/

namespace Joque

/-- `std::string` / `std::string_view` as a sequence of characters (include/joque/dag.hpp:67,
include/joque/records.hpp:39 and wherever joque handles text). -/
abbrev Str := List Char

/-- Address of a `dag_node` (include/joque/dag.hpp:18-19). `std::set<dag_node*>` orders by it. -/
abbrev Node := Nat

/-- Address of a `task` (include/joque/task.hpp:27-51). -/
abbrev TaskId := Nat

/-- Address of a `resource` (include/joque/task.hpp:18-21). -/
abbrev Res := Nat

/-- `enum class ekind` (include/joque/dag.hpp:21-29). -/
inductive EKind where
  | after
  | invalidatedBy
  | requires
  deriving DecidableEq, Repr

/-- `enum class inval` (include/joque/dag.hpp:56-61). -/
inductive Inval where
  | valid
  | invalid
  | unknown
  deriving DecidableEq, Repr

/-- `enum class run_status` (include/joque/records.hpp:18-24). -/
inductive Status where
  | ok
  | skip
  | depf
  | fail
  deriving DecidableEq, Repr

/-- `output_chunk::type_e` (include/joque/run_result.hpp:15-19). -/
inductive ChunkType where
  | error
  | standard
  deriving DecidableEq, Repr

/-- `struct output_chunk` (include/joque/run_result.hpp:13-22). -/
structure Chunk where
  type : ChunkType
  data : Str
  deriving DecidableEq, Repr

/-- `struct run_result` (include/joque/run_result.hpp:32-40).  `int retcode` has no default
initialiser, so `run_result res;` leaves it indeterminate: `none` is the indeterminate value,
reading it is undefined behaviour. -/
structure RunResult where
  retcode : Option Int
  output : List Chunk
  log : Str
  deriving DecidableEq, Repr

/-- `struct inval_result` (include/joque/run_result.hpp:42-47). -/
structure InvalResult where
  invalidated : Bool
  log : Str
  deriving DecidableEq, Repr

/-- `std::set<T*>::insert` keeping the address order (used for `to_process`
src/exec.cpp:298-300 and `to_propagate` src/exec.cpp:199,205,226).  The set is the strictly
ascending list of addresses, so iteration order and `begin()` are those of `std::set`. -/
def sinsert (x : Nat) : List Nat → List Nat
  | [] => [x]
  | y :: ys =>
    if x < y then x :: y :: ys
    else if x = y then y :: ys
    else y :: sinsert x ys

/-- `std::set<T*>::erase(x)` (src/exec.cpp:322). -/
def serase (x : Nat) (l : List Nat) : List Nat := l.filter (· ≠ x)

/-- A dag edge: `struct edge_content` (include/joque/dag.hpp:33-38). -/
structure Edge where
  src : Node
  tgt : Node
  kind : EKind
  deriving DecidableEq, Repr

/-- The dag (`bits::graph<dag_node>`, include/joque/bits/dag.hpp:144-188) seen through its API:
the node list in iteration order, and all edges, newest first.  That the intrusive linked lists
really implement these sequences is what `Model/GraphHeap` and properties C28, C31-C33 are
about.  `name`/`task` are the immutable fields of `node_content`
(include/joque/dag.hpp:64-69). -/
structure Dag where
  nodes : List Node
  edges : List Edge
  name : Node → Str
  task : Node → TaskId

/-- `n.out_edges()` (include/joque/bits/dag.hpp:113-121): `add_edge` does `emplace_front`, so
iteration is newest first. -/
def Dag.outEdges (g : Dag) (n : Node) : List Edge := g.edges.filter (fun e => e.src = n)

/-- `n.in_edges()` (include/joque/bits/dag.hpp:123-131): `add_edge` does `link_front`. -/
def Dag.inEdges (g : Dag) (n : Node) : List Edge := g.edges.filter (fun e => e.tgt = n)

/-- `filter_edges<Kind>(edges)` (include/joque/dag.hpp:40-46). -/
def filterEdges (k : EKind) (es : List Edge) : List Edge := es.filter (fun e => e.kind = k)

/-- `dag g;` (src/exec.cpp:290, include/joque/bits/dag.hpp:152): a default constructed graph. -/
def Dag.empty : Dag := { nodes := [], edges := [], name := fun _ => [], task := fun _ => 0 }

/-- `dag.emplace(name, t)` placing the node at address `a`
(include/joque/bits/dag.hpp:180-184 → list.hpp:338-345, newest node first). -/
def Dag.emplace (g : Dag) (a : Node) (name : Str) (t : TaskId) : Dag :=
  { nodes := a :: g.nodes
    edges := g.edges
    name := fun n => if n = a then name else g.name n
    task := fun n => if n = a then t else g.task n }

/-- `add_edge(source, target, kind)` (include/joque/dag.hpp:48-54). -/
def Dag.addEdge (g : Dag) (s t : Node) (k : EKind) : Dag :=
  { g with edges := { src := s, tgt := t, kind := k } :: g.edges }

end Joque
