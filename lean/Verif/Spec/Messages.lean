import Verif.Spec.Graph

/-! # Texts made of lines -/

namespace Joque

/-- `s` consists of the lines `ls`, each ended by a line break -/
def TextLines (s : Str) (ls : List Str) : Prop :=
  s = ls.flatMap (· ++ ['\n']) ∧ ∀ l ∈ ls, '\n' ∉ l

/-- what is to be said about nodes without a job -/
def noJobLine (name : Str) : Str := "Task ".toList ++ name ++ " has no job".toList

/-- what is to be said about a cycle -/
def cycleLines (names : List Str) : List Str :=
  "Cycle between nodes detected:".toList :: names.map ('\t' :: ·)

end Joque
