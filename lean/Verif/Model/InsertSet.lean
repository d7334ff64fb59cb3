import Verif.Model.Task

/-!
# Building the dag from a task set (src/dag.cpp:15-30, 58-85; src/exec.cpp:284-293)

What C++ leaves open is a parameter: addresses of new nodes (`alloc`), the iteration orders of the
two `unordered_map`s, and when an insertion into `tmp` rehashes.
-/

namespace Joque

/-- `find` / `contains` / reading `operator[]` of the unordered maps `tmp`, `index` (src/dag.cpp:17-27,75-82)
on a list of entries. -/
def mget {α : Type} : List (TaskId × α) → TaskId → Option α
  | [], _ => none
  | (k, v) :: r, t => if k = t then some v else mget r t

/-- The environment of `insert_set` (src/dag.cpp:58-85). -/
structure BEnv where
  store : Store
  /-- address of the k-th node allocated by this call -/
  alloc : Nat → Node
  /-- inserting into `tmp` when it has `k` elements rehashes (iterators become invalid) -/
  rehash : Nat → Bool

/-- Local variables of `insert_set` (src/dag.cpp:61,66) and the dag. -/
structure BSt where
  dag : Dag
  tmp : List (TaskId × Str)
  index : List (TaskId × Node)

/-- Outcome of a part of `insert_set` (src/dag.cpp:15-29,58-85). -/
inductive BOut where
  | ok (s : BSt)
  | ub
  | outOfFuel

/-- `add_edge(*index[&t], *index[&d], kind)` (src/dag.cpp:24-27,77,82); `operator[]` of a missing key
gives a null pointer, dereferencing it is undefined behaviour (`none`). -/
def BSt.addEdge (s : BSt) (t d : TaskId) (k : EKind) : Option BSt :=
  match mget s.index t, mget s.index d with
  | some a, some b => some { s with dag := s.dag.addEdge a b k }
  | _, _ => none

/-- The three edges of a dependency (src/dag.cpp:24-27). -/
def BSt.addDep (s : BSt) (t d : TaskId) : Option BSt :=
  (s.addEdge t d .after).bind fun s =>
    (s.addEdge t d .requires).bind fun s => s.addEdge t d .invalidatedBy

/-- Loop over `t.depends_on` (src/dag.cpp:21-28). -/
def depsLoop (rec : TaskId → BSt → BOut) (t : TaskId) : List TaskId → BSt → BOut
  | [], s => .ok s
  | d :: ds, s =>
    match rec d s with
    | .ok s =>
      match s.addDep t d with
      | some s => depsLoop rec t ds s
      | none => .ub
    | .ub => .ub
    | .outOfFuel => .outOfFuel

/-- `index[&t] = &dag.emplace(name, t)` (src/dag.cpp:19). -/
def BSt.emplace (E : BEnv) (s : BSt) (t : TaskId) (name : Str) : BSt :=
  let a := E.alloc s.index.length
  { s with dag := s.dag.emplace a name t, index := (t, a) :: s.index }

/-- `dfs` (src/dag.cpp:15-29).  `tmp[&t]` for a task that is not in `tmp` inserts an empty name;
`insert_set` is iterating `tmp` at that moment, so a rehash invalidates its iterator, which it
then increments: undefined behaviour. -/
def bdfs (E : BEnv) : Nat → TaskId → BSt → BOut
  | 0, _, _ => .outOfFuel
  | fuel + 1, t, s =>
    match mget s.index t with
    | some _ => .ok s
    | none =>
      match mget s.tmp t with
      | some name => depsLoop (bdfs E fuel) t (E.store t).dependsOn (s.emplace E t name)
      | none =>
        if E.rehash s.tmp.length then .ub
        else
          depsLoop (bdfs E fuel) t (E.store t).dependsOn
            ({ s with tmp := (t, []) :: s.tmp }.emplace E t [])

/-- `n.find( filter ) != npos` (src/dag.cpp:68): some position of `hay` (the end included) starts with
`needle`. -/
def containsStr : Str → Str → Bool
  | [], needle => needle.isPrefixOf []
  | c :: cs, needle => needle.isPrefixOf (c :: cs) || containsStr cs needle

/-- First loop of `insert_set` (src/dag.cpp:67-71).  `visit` is the order in which the iterator
meets keys; a key that is not in the map (not inserted yet) is not met. -/
def tmpLoop (E : BEnv) (fuel : Nat) (filter : Str) : List TaskId → BSt → BOut
  | [], s => .ok s
  | t :: ts, s =>
    match mget s.tmp t with
    | none => tmpLoop E fuel filter ts s
    | some n =>
      if containsStr n filter then
        match bdfs E fuel t s with
        | .ok s => tmpLoop E fuel filter ts s
        | .ub => .ub
        | .outOfFuel => .outOfFuel
      else tmpLoop E fuel filter ts s

/-- Loops at src/dag.cpp:74-83: targets not in `index` are skipped. -/
def addSoft (s : BSt) (n : Node) (k : EKind) : List TaskId → BSt
  | [] => s
  | d :: ds =>
    match mget s.index d with
    | none => addSoft s n k ds
    | some b => addSoft { s with dag := s.dag.addEdge n b k } n k ds

/-- Second loop of `insert_set` (src/dag.cpp:73-84), over the keys of `index` in some order. -/
def indexLoop (E : BEnv) : List TaskId → BSt → BSt
  | [], s => s
  | t :: ts, s =>
    match mget s.index t with
    | none => indexLoop E ts s
    | some n =>
      let s := addSoft s n .after (E.store t).runAfter
      let s := addSoft s n .invalidatedBy (E.store t).invalidatedBy
      indexLoop E ts s

/-- `insert_set(dag, ts, filter)` (src/dag.cpp:58-85).  `visit`: iteration order of `tmp`;
`order`: iteration order of `index`, a rearrangement of its keys. -/
def insertSet (E : BEnv) (fuel : Nat) (g : Dag) (ts : TaskSet) (filter : Str)
    (visit : List TaskId) (order : List TaskId → List TaskId) : BOut :=
  let tmp := (forEachTask ts).map (fun e => (e.2, e.1))
  match tmpLoop E fuel filter visit { dag := g, tmp := tmp, index := [] } with
  | .ok s => .ok (indexLoop E (order (s.index.map Prod.fst)) s)
  | .ub => .ub
  | .outOfFuel => .outOfFuel

/-- The execution of a dag whose nodes refer to the tasks of the store
(`exec(dag g, thread_count, vis)`, src/exec.cpp:295). -/
def execCfg (st : Store) (g : Dag) (tc : Nat) : Cfg :=
  Cfg.ofJobs g (fun n => (st (g.task n)).resources) (fun n => (st (g.task n)).job) tc

end Joque
