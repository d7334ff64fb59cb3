import Verif.Spec.Graph
import Verif.Model.Exec
import Verif.Spec.Inval

/-! # Vocabulary for jobs that do not come to an end (C116) -/

namespace Joque

/-- If the jobs of `H` may not end, `n` may have to wait for ever: its job is one of them or needs a resource
of one of them, or `n` comes after such a task. -/
inductive HeldUp (C : Cfg) (H : Node → Prop) : Node → Prop
  | hangs {n : Node} (h : H n) : HeldUp C H n
  | resource {n h : Node} {r : Res} (hh : H h) (hr : r ∈ C.resources h) (hn : r ∈ C.resources n) : HeldUp C H n
  | after {n m : Node} (ha : AfterEdge C.dag n m) (hm : HeldUp C H m) : HeldUp C H n

/-- The jobs of `l` may be executing at the same time: they have to be executed, none has to wait for
another one, and no two of them need one resource. -/
structure Together (C : Cfg) (l : List Node) : Prop where
  nodup : l.Nodup
  stale : ∀ n ∈ l, Stale C.dag C.ask n
  unordered : ∀ a ∈ l, ∀ b ∈ l, ¬ Relation.TransGen (AfterEdge C.dag) a b
  disjoint : ∀ a ∈ l, ∀ b ∈ l, a ≠ b → ∀ r ∈ C.resources a, r ∉ C.resources b

end Joque
