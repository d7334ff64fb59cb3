import Verif.Model.Basic

/-! # `format_dag` (src/format_dag.cpp) -/

namespace Joque

/-- `join_names(edges)` (src/format_dag.cpp:17-28) -/
def joinNames (g : Dag) : List Edge → Str
  | [] => []
  | e :: es =>
    es.foldl (fun res e => res ++ (", ".toList ++ g.name e.tgt)) (" ".toList ++ g.name e.tgt) ++
      " ".toList

/-- `format_dag(d, f)` (src/format_dag.cpp:31-40): the strings passed to `f`, in order -/
def formatDag (g : Dag) : List Str :=
  g.nodes.flatMap fun n =>
    [g.name n, "   -> runs after {".toList ++ joinNames g (g.outEdges n) ++ "}".toList]

/-- `print_dag(os, d)` (src/format_dag.cpp:42-47): the characters written -/
def printDag (g : Dag) : Str := (formatDag g).flatMap (· ++ "\n".toList)

end Joque
