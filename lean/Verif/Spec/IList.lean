import Verif.Model.IList

/-!
# What lists should be: sequences

The reference: a list object is a sequence of node addresses.
-/

namespace Joque

/-- Reference state: the sequence of every list object alive, and the nodes alive. -/
structure Seqs where
  seq : Nat → List Nat
  lists : Nat → Prop
  nodes : Nat → Prop

def Seqs.init : Seqs := { seq := fun _ => [], lists := fun _ => False, nodes := fun _ => False }

/-- in no list -/
def Seqs.Loose (a : Seqs) (n : Nat) : Prop := ∀ l, n ∉ a.seq l

/-- contract of the operations: objects used are alive, new objects are new, an element is linked
into one list only -/
def LOp.Pre (a : Seqs) : LOp → Prop
  | .newList l => ¬ a.lists l
  | .emplaceFront l n => a.lists l ∧ ¬ a.nodes n
  | .newNode n => ¬ a.nodes n
  | .linkFront l n => a.lists l ∧ a.nodes n ∧ a.Loose n
  | .deleteNode n => a.nodes n
  | .moveList l m => ¬ a.lists l ∧ a.lists m
  | .clearIf l _ => a.lists l
  | .destroyList l => a.lists l

/-- meaning of the operations on sequences -/
def LOp.apply (a : Seqs) : LOp → Seqs
  | .newList l => { a with lists := fun x => x = l ∨ a.lists x, seq := fset a.seq l [] }
  | .emplaceFront l n =>
    { a with seq := fset a.seq l (n :: a.seq l), nodes := fun x => x = n ∨ a.nodes x }
  | .newNode n => { a with nodes := fun x => x = n ∨ a.nodes x }
  | .linkFront l n => { a with seq := fset a.seq l (n :: a.seq l) }
  | .deleteNode n =>
    { a with seq := fun l => (a.seq l).filter (· ≠ n), nodes := fun x => x ≠ n ∧ a.nodes x }
  | .moveList l m =>
    { a with lists := fun x => x = l ∨ a.lists x, seq := fset (fset a.seq l (a.seq m)) m [] }
  | .clearIf l f =>
    { a with seq := fset a.seq l ((a.seq l).filter (fun n => !f n))
             nodes := fun x => a.nodes x ∧ ¬ (x ∈ a.seq l ∧ f x = true) }
  | .destroyList l =>
    { seq := fset a.seq l [], lists := fun x => x ≠ l ∧ a.lists x
      nodes := fun x => a.nodes x ∧ x ∉ a.seq l }

/-- a program that respects the contracts -/
def LOk : Seqs → List LOp → Prop
  | _, [] => True
  | a, o :: os => o.Pre a ∧ LOk (o.apply a) os

def LOp.run (a : Seqs) (os : List LOp) : Seqs := os.foldl LOp.apply a

end Joque
