import Mathlib.Logic.Relation
import Verif.Spec.Trace

/-! # Histories that differ in the order of independent events -/

namespace Joque

/-- a job begins or ends -/
def Event.isJob : Event → Bool
  | .jobBegin _ _ | .jobEnd _ => true
  | _ => false

/-- The second history is the first with two neighbours exchanged: `c` is something the control thread
does, not for task `n`, and `w` is the beginning or the end of the job of `n` on a thread. -/
inductive Swap : List Event → List Event → Prop where
  | mk (x y : List Event) (c w : Event) (n : Node) (hw : w = .jobBegin n false ∨ w = .jobEnd n)
      (hc : c.isJob = false) (hn : tagOf n c = none) : Swap (x ++ c :: w :: y) (x ++ w :: c :: y)

/-- any number of such exchanges -/
def Reordered : List Event → List Event → Prop := Relation.ReflTransGen Swap

end Joque
