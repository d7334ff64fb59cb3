import Verif.Model.Basic

/-!
# Reading XML

A reader for the part of XML that matters here, written as a state machine over the characters.
It enforces: matching tags, one root, no text outside the root, distinct attribute names, quoted
values without `<`, references (`&lt;` and the like) resolved, control characters refused, line breaks and
tabs in values read as spaces.  Text inside elements is skipped.
-/

namespace Joque

inductive Xml where
  | elem (name : Str) (attrs : List (Str × Str)) (children : List Xml)

inductive XMode where
  | text
  | lt
  | decl
  | close (n : Str)
  | tag (n : Str)
  | inTag (n : Str) (as : List (Str × Str))
  | key (n : Str) (as : List (Str × Str)) (k : Str)
  | eq (n : Str) (as : List (Str × Str)) (k : Str)
  | val (n : Str) (as : List (Str × Str)) (k v : Str)
  | ent (n : Str) (as : List (Str × Str)) (k v e : Str)
  | afterVal (n : Str) (as : List (Str × Str))
  | slash (n : Str) (as : List (Str × Str))

/-- open elements (innermost first, with the children read so far), complete ones, and where we are -/
structure XSt where
  stack : List (Str × List (Str × Str) × List Xml)
  roots : List Xml
  mode : XMode

def XSt.init : XSt := ⟨[], [], .text⟩

/-- a complete element becomes a child of the innermost open one -/
def XSt.add (s : XSt) (x : Xml) : XSt :=
  match s.stack with
  | (n, a, ch) :: rest => { s with stack := (n, a, ch ++ [x]) :: rest, mode := .text }
  | [] => { s with roots := s.roots ++ [x], mode := .text }

def xmlWs (c : Char) : Bool := c = ' ' || c = '\n' || c = '\t' || c = '\r'

def nameChar (c : Char) : Bool := c.isAlpha || c.isDigit || c = '-' || c = '_' || c = '.' || c = ':'

def entity (e : Str) : Option Char :=
  if e = ['l', 't'] then some '<'
  else if e = ['g', 't'] then some '>'
  else if e = ['a', 'm', 'p'] then some '&'
  else if e = ['q', 'u', 'o', 't'] then some '"'
  else if e = ['a', 'p', 'o', 's'] then some '\''
  else none

def xstep (s : XSt) (c : Char) : Option XSt :=
  match s.mode with
  | .text =>
    if c = '<' then some { s with mode := .lt }
    else if s.stack.isEmpty then (if xmlWs c then some s else none)
    else if c = '&' then none else some s
  | .lt =>
    if c = '/' then some { s with mode := .close [] }
    else if c = '?' then
      (if s.stack.isEmpty && s.roots.isEmpty then some { s with mode := .decl } else none)
    else if c.isAlpha then some { s with mode := .tag [c] }
    else none
  | .decl => if c = '>' then some { s with mode := .text } else some s
  | .close n =>
    if c = '>' then
      match s.stack with
      | (m, a, ch) :: rest => if m = n then some (XSt.add { s with stack := rest } (.elem m a ch)) else none
      | [] => none
    else if nameChar c then some { s with mode := .close (n ++ [c]) } else none
  | .tag n =>
    if xmlWs c then some { s with mode := .inTag n [] }
    else if c = '>' then some { s with stack := (n, [], []) :: s.stack, mode := .text }
    else if c = '/' then some { s with mode := .slash n [] }
    else if nameChar c then some { s with mode := .tag (n ++ [c]) } else none
  | .inTag n as =>
    if xmlWs c then some s
    else if c = '>' then some { s with stack := (n, as, []) :: s.stack, mode := .text }
    else if c = '/' then some { s with mode := .slash n as }
    else if c.isAlpha then some { s with mode := .key n as [c] } else none
  | .key n as k =>
    if c = '=' then some { s with mode := .eq n as k }
    else if nameChar c then some { s with mode := .key n as (k ++ [c]) } else none
  | .eq n as k => if c = '"' then some { s with mode := .val n as k [] } else none
  | .val n as k v =>
    if c = '"' then
      (if k ∈ as.map Prod.fst then none else some { s with mode := .afterVal n (as ++ [(k, v)]) })
    else if c = '<' then none
    else if c = '&' then some { s with mode := .ent n as k v [] }
    else if xmlWs c then some { s with mode := .val n as k (v ++ [' ']) }
    else if c.toNat < 32 then none
    else some { s with mode := .val n as k (v ++ [c]) }
  | .ent n as k v e =>
    if c = ';' then (entity e).map fun ch => { s with mode := .val n as k (v ++ [ch]) }
    else some { s with mode := .ent n as k v (e ++ [c]) }
  | .afterVal n as =>
    if xmlWs c then some { s with mode := .inTag n as }
    else if c = '>' then some { s with stack := (n, as, []) :: s.stack, mode := .text }
    else if c = '/' then some { s with mode := .slash n as } else none
  | .slash n as => if c = '>' then some (XSt.add s (.elem n as [])) else none

def xrun : XSt → Str → Option XSt
  | s, [] => some s
  | s, c :: cs => (xstep s c).bind fun s' => xrun s' cs

/-- The document: one root element and nothing left open. -/
def parseXml (doc : Str) : Option Xml :=
  match xrun XSt.init doc with
  | some ⟨[], [x], .text⟩ => some x
  | _ => none

/-- Characters that stand for themselves in a quoted value. -/
def XmlClean (s : Str) : Prop := ∀ c ∈ s, c ≠ '"' ∧ c ≠ '<' ∧ c ≠ '&' ∧ 32 ≤ c.toNat

end Joque
