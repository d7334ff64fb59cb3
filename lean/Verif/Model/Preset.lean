import Verif.Model.Exec

/-!
# Executing a dag whose nodes carry marks already

`exec(dag, …)` (include/joque/exec.hpp:50-53, src/exec.cpp:295) is there for customised dags.  The
marks of a node are public members (include/joque/dag.hpp:71-80); nothing resets them at the start
of an execution.
-/

namespace Joque

/-- the state right after calling `exec` with a dag whose nodes have the marks `f`
(src/exec.cpp:295, include/joque/dag.hpp:71-80) -/
def St.initWith (f : Flags) : St := { St.init with flags := f }

/-- `exec` for such a dag (src/exec.cpp:295-343) -/
def execFrom (C : Cfg) (f : Flags) (ms : List Move) : St := ms.foldl (step C) (St.initWith f)

/-- the marks of a new node (include/joque/dag.hpp:71-80) -/
def Flags.fresh : Flags := St.init.flags

end Joque
