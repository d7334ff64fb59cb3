import Verif.Model.InsertSet
import Verif.Model.GraphHeap

/-!
# Running out of memory while a dag is built (src/dag.cpp:15-29,58-84)

The functions follow the control flow of those of `Model/InsertSet` and list the places where memory is
allocated, in order.  When an allocation fails, `std::bad_alloc` leaves `insert_set`: nothing in
src/dag.cpp catches it, the local maps are destroyed, and the dag keeps what was done before.  Every
operation allocates before it changes anything (`new` precedes linking, include/joque/bits/list.hpp:219-220;
insertions into the maps have no effect if they throw), so a place stands for all the allocations of one
operation.
-/

namespace Joque

/-- One place that allocates (src/dag.cpp:19,24-27,63,77,82). -/
inductive Alloc where
  /-- an entry of one of the two maps (with its name) (src/dag.cpp:19,63) -/
  | map
  /-- a node or an edge (src/dag.cpp:19,24-27,77,82) -/
  | op (o : DOp)

/-- `add_edge(*index[&t], *index[&d], kind)` (src/dag.cpp:24-27,77,82); `ea j` is the address of the edge
allocated when the dag has `j` edges. -/
def edgeAlloc (ea : Nat → Nat) (s : BSt) (t d : TaskId) (k : EKind) : List Alloc :=
  match mget s.index t, mget s.index d with
  | some a, some b => [.op (.addEdge (ea s.dag.edges.length) a b k)]
  | _, _ => []

/-- the three edges of a dependency (src/dag.cpp:24-27) -/
def depAlloc (ea : Nat → Nat) (s : BSt) (t d : TaskId) : List Alloc :=
  edgeAlloc ea s t d .after ++
    match s.addEdge t d .after with
    | none => []
    | some s => edgeAlloc ea s t d .requires ++
      match s.addEdge t d .requires with
      | none => []
      | some s => edgeAlloc ea s t d .invalidatedBy

/-- the loop of `dfs` (src/dag.cpp:21-28) -/
def depsLoopAlloc (ea : Nat → Nat) (rec : TaskId → BSt → BOut) (alloc : TaskId → BSt → List Alloc)
    (t : TaskId) : List TaskId → BSt → List Alloc
  | [], _ => []
  | d :: ds, s => alloc d s ++
    match rec d s with
    | .ok s' => depAlloc ea s' t d ++
      match s'.addDep t d with
      | some s'' => depsLoopAlloc ea rec alloc t ds s''
      | none => []
    | _ => []

/-- `dfs` (src/dag.cpp:15-29): the entry `tmp[&t]` if there is none, the node, the entry `index[&t]`, then
the loop -/
def bdfsAlloc (E : BEnv) (ea : Nat → Nat) : Nat → TaskId → BSt → List Alloc
  | 0, _, _ => []
  | fuel + 1, t, s =>
    match mget s.index t with
    | some _ => []
    | none =>
      match mget s.tmp t with
      | some name =>
        [.op (.emplace (E.alloc s.index.length) name t), .map] ++
          depsLoopAlloc ea (bdfs E fuel) (bdfsAlloc E ea fuel) t (E.store t).dependsOn (s.emplace E t name)
      | none =>
        .map ::
          (if E.rehash s.tmp.length then []
          else [.op (.emplace (E.alloc s.index.length) [] t), .map] ++
            depsLoopAlloc ea (bdfs E fuel) (bdfsAlloc E ea fuel) t (E.store t).dependsOn
              ({ s with tmp := (t, []) :: s.tmp }.emplace E t []))

/-- the first loop of `insert_set` (src/dag.cpp:67-71) -/
def tmpLoopAlloc (E : BEnv) (ea : Nat → Nat) (fuel : Nat) (filter : Str) : List TaskId → BSt → List Alloc
  | [], _ => []
  | t :: ts, s =>
    match mget s.tmp t with
    | none => tmpLoopAlloc E ea fuel filter ts s
    | some n =>
      if containsStr n filter then
        bdfsAlloc E ea fuel t s ++
          match bdfs E fuel t s with
          | .ok s => tmpLoopAlloc E ea fuel filter ts s
          | _ => []
      else tmpLoopAlloc E ea fuel filter ts s

/-- one of the two loops of src/dag.cpp:74-83 -/
def softAlloc (ea : Nat → Nat) (s : BSt) (n : Node) (k : EKind) : List TaskId → List Alloc
  | [] => []
  | d :: ds =>
    match mget s.index d with
    | none => softAlloc ea s n k ds
    | some b =>
      .op (.addEdge (ea s.dag.edges.length) n b k) :: softAlloc ea { s with dag := s.dag.addEdge n b k } n k ds

/-- the second loop of `insert_set` (src/dag.cpp:73-84) -/
def indexLoopAlloc (E : BEnv) (ea : Nat → Nat) : List TaskId → BSt → List Alloc
  | [], _ => []
  | t :: ts, s =>
    match mget s.index t with
    | none => indexLoopAlloc E ea ts s
    | some n =>
      let s' := addSoft s n .after (E.store t).runAfter
      let s'' := addSoft s' n .invalidatedBy (E.store t).invalidatedBy
      softAlloc ea s n .after (E.store t).runAfter ++
        (softAlloc ea s' n .invalidatedBy (E.store t).invalidatedBy ++ indexLoopAlloc E ea ts s'')

/-- `insert_set` (src/dag.cpp:58-85): the entries of `tmp`, then the two loops -/
def insertAllocs (E : BEnv) (ea : Nat → Nat) (fuel : Nat) (g : Dag) (ts : TaskSet) (filter : Str)
    (visit : List TaskId) (order : List TaskId → List TaskId) : List Alloc :=
  let s : BSt := { dag := g, tmp := (forEachTask ts).map (fun e => (e.2, e.1)), index := [] }
  (forEachTask ts).map (fun _ => Alloc.map) ++ (tmpLoopAlloc E ea fuel filter visit s ++
    match tmpLoop E fuel filter visit s with
    | .ok s => indexLoopAlloc E ea (order (s.index.map Prod.fst)) s
    | _ => [])

/-- what a sequence of allocations does to the dag (src/dag.cpp:19,24-27,77,82) -/
def dagOps (l : List Alloc) : List DOp :=
  l.filterMap fun
    | .map => none
    | .op o => some o

/-- The dag after `insert_set` threw `std::bad_alloc` because memory ran out after `k` of its allocations
(src/dag.cpp:58-85). -/
def leftover (E : BEnv) (ea : Nat → Nat) (fuel : Nat) (g : Dag) (ts : TaskSet) (filter : Str)
    (visit : List TaskId) (order : List TaskId → List TaskId) (k : Nat) : Dag :=
  (dagOps ((insertAllocs E ea fuel g ts filter visit order).take k)).foldl DOp.onDag g

end Joque
