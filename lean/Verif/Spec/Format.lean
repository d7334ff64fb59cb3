import Verif.Model.Format

/-! # Vocabulary for text -/

namespace Joque

/-- `s` consists of the lines `ls`, each closed by a line break, and the unclosed rest `p`. -/
structure SplitsInto (s : Str) (ls : List Str) (p : Str) : Prop where
  eq : s = ls.flatMap (fun l => l ++ ['\n']) ++ p
  lines : ∀ l ∈ ls, '\n' ∉ l
  rest : '\n' ∉ p

/-- all output, whatever its stream -/
def allText (cs : List Chunk) : Str := cs.flatMap Chunk.data

/-- What a terminal shows: escape sequences (ESC up to the letter `m`) take no room. -/
def visAux : Bool → Str → Str
  | _, [] => []
  | true, c :: cs => if c = 'm' then visAux false cs else visAux true cs
  | false, c :: cs => if c = '\x1b' then visAux true cs else c :: visAux false cs

def visible (s : Str) : Str := visAux false s

/-- no escape character -/
def Plain (s : Str) : Prop := '\x1b' ∉ s

end Joque
