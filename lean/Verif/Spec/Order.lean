import Verif.Model.Basic

/-! # Depth-first order -/

namespace Joque

/-- the tasks `n` is declared to run after, the last declared first -/
def orderedAfter (g : Dag) (n : Node) : List Node :=
  (g.edges.filter fun e => decide (e.src = n) && decide (e.kind = .after)).map Edge.tgt

/-- Append `n` to a list of tasks unless it is there: but first, in the same way, everything it runs
after.  (`depth` bounds how far this goes; without cycles the number of tasks is enough.) -/
def depthFirst (g : Dag) : (depth : Nat) → Node → List Node → List Node
  | 0, _, acc => acc
  | depth + 1, n, acc =>
    if n ∈ acc then acc
    else (orderedAfter g n).foldl (fun acc m => depthFirst g depth m acc) acc ++ [n]

/-- All of `roots`, each preceded by everything it runs after. -/
def startOrder (g : Dag) (roots : List Node) : List Node :=
  roots.foldl (fun acc n => depthFirst g (g.nodes.length + 1) n acc) []

end Joque
