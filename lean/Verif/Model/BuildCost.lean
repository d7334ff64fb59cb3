import Verif.Model.Cost
import Verif.Model.InsertSet

/-!
# What building a dag costs (src/dag.cpp:15-29,58-71)

As in `Model/Cost`: the functions follow the control flow of those of `Model/InsertSet` and count calls of
`dfs` and how deeply they are nested.  (The maps are hash maps; looking up is not counted.)
-/

namespace Joque

/-- the loop of `dfs` (src/dag.cpp:21-28) -/
def depsLoopCost (rec : TaskId → BSt → BOut) (cost : TaskId → BSt → Cost) (t : TaskId) :
    List TaskId → BSt → Cost
  | [], _ => .zero
  | d :: ds, s =>
    match rec d s with
    | .ok s' =>
      match s'.addDep t d with
      | some s'' => (cost d s).seq (depsLoopCost rec cost t ds s'')
      | none => cost d s
    | _ => cost d s

/-- `dfs` (src/dag.cpp:15-29) -/
def bdfsCost (E : BEnv) : Nat → TaskId → BSt → Cost
  | 0, _, _ => .zero
  | fuel + 1, t, s =>
    Cost.call 0
      (match mget s.index t with
      | some _ => .zero
      | none =>
        match mget s.tmp t with
        | some name =>
          depsLoopCost (bdfs E fuel) (bdfsCost E fuel) t (E.store t).dependsOn (s.emplace E t name)
        | none =>
          if E.rehash s.tmp.length then .zero
          else
            depsLoopCost (bdfs E fuel) (bdfsCost E fuel) t (E.store t).dependsOn
              ({ s with tmp := (t, []) :: s.tmp }.emplace E t []))

/-- the first loop of `insert_set` (src/dag.cpp:67-71) -/
def tmpLoopCost (E : BEnv) (fuel : Nat) (filter : Str) : List TaskId → BSt → Cost
  | [], _ => .zero
  | t :: ts, s =>
    match mget s.tmp t with
    | none => tmpLoopCost E fuel filter ts s
    | some n =>
      if containsStr n filter then
        match bdfs E fuel t s with
        | .ok s' => (bdfsCost E fuel t s).seq (tmpLoopCost E fuel filter ts s')
        | _ => bdfsCost E fuel t s
      else tmpLoopCost E fuel filter ts s

/-- `insert_set` (src/dag.cpp:58-71) -/
def insertSetCost (E : BEnv) (fuel : Nat) (g : Dag) (ts : TaskSet) (filter : Str) (visit : List TaskId) :
    Cost :=
  tmpLoopCost E fuel filter visit
    { dag := g, tmp := (forEachTask ts).map (fun e => (e.2, e.1)), index := [] }

end Joque
