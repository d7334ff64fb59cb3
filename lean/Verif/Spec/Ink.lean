import Verif.Spec.Terminal

/-!
# Colours on a terminal

The characters a terminal draws, in order, each with its colour.  Of the escape sequences these are
understood: ESC[0m (default colour), ESC[38;5;Nm (colour N of the palette), ESC[?25l and ESC[?25h (hide
and show the cursor).
-/

namespace Joque

inductive InkMode where
  | text
  /-- after ESC -/
  | esc
  /-- after ESC [ and these characters -/
  | csi (params : Str)
  deriving DecidableEq, Repr

structure Ink where
  drawn : List (Char × Option Nat)
  /-- `none`: the default colour -/
  colour : Option Nat
  cursor : Bool
  mode : InkMode
  deriving DecidableEq, Repr

/-- ESC [ `params` `c` arrived. -/
def Ink.control (t : Ink) (params : Str) (c : Char) : Ink :=
  if c = 'm' then
    if params = ['0'] then { t with colour := none, mode := .text }
    else if params.take 5 = ['3', '8', ';', '5', ';'] then
      { t with colour := some (Nat.ofDigitChars 10 (params.drop 5) 0), mode := .text }
    else { t with mode := .text }
  else if params = ['?', '2', '5'] ∧ c = 'l' then { t with cursor := false, mode := .text }
  else if params = ['?', '2', '5'] ∧ c = 'h' then { t with cursor := true, mode := .text }
  else { t with mode := .text }

/-- One character arrives. -/
def Ink.putc (t : Ink) (c : Char) : Ink :=
  match t.mode with
  | .text =>
    if c = '\x1b' then { t with mode := .esc } else { t with drawn := t.drawn ++ [(c, t.colour)] }
  | .esc => { t with mode := if c = '[' then .csi [] else .text }
  | .csi params =>
    if 64 ≤ c.toNat ∧ c.toNat ≤ 126 then t.control params c else { t with mode := .csi (params ++ [c]) }

def Ink.feed (t : Ink) (s : Str) : Ink := s.foldl Ink.putc t

/-- a terminal with the default colour and a visible cursor -/
def Ink.fresh : Ink := { drawn := [], colour := none, cursor := true, mode := .text }

/-- `s` draws `v` on a terminal with the default colour and a visible cursor, and leaves it like that. -/
def Draws (s : Str) (v : List (Char × Option Nat)) : Prop :=
  ∀ d, (Ink.mk d none true .text).feed s = ⟨d ++ v, none, true, .text⟩

/-- text in a colour -/
def inked (c : Option Nat) (s : Str) : List (Char × Option Nat) := s.map fun x => (x, c)

/-- green, yellow, orange and red of the palette -/
def statusColour : Status → Nat
  | .ok => 118
  | .skip => 226
  | .depf => 202
  | .fail => 196

/-- dark gray -/
def gray : Option Nat := some 239

/-- The line of a task: time, number of tasks, `/` in the name and duration in gray, the status in its
colour, all else in the default colour. -/
def taskInk (hms : Str) (count total : Nat) (status : Str) (colour : Nat) (name : Str)
    (dur : Option Str) : List (Char × Option Nat) :=
  inked gray hms ++ inked none ("  ".toList ++ colRight (digits total).length '0' (digits count) ++ "/".toList)
    ++ inked gray (digits total) ++ inked none "  ".toList
    ++ inked (some colour) (colRight 4 ' ' status) ++ inked none "  ".toList
    ++ (colLeft 60 (name.take 60)).map (fun c => (c, if c = '/' then gray else none))
    ++ inked none "  ".toList
    ++ (match dur with
      | some d => inked none "  ".toList ++ inked gray (colRight 8 ' ' d)
      | none => [])

/-- the count of one status in the summary: all gray if it is 0, otherwise the count in the colour of
the status -/
def countInk (st : Status) (word : Str) (n : Nat) : List (Char × Option Nat) :=
  inked none "  ".toList ++ inked (if n = 0 then gray else none) (word ++ ": ".toList)
    ++ inked (if n = 0 then gray else some (statusColour st)) (colLeft 5 (digits n))

/-- The summary: time and run time in gray. -/
def summaryInk (hms : Str) (total : Nat) (st : Status → Nat) (secs : Str) : List (Char × Option Nat) :=
  inked gray hms
    ++ inked none ("  ".toList ++ List.replicate ((digits total).length + 1) ' ' ++ digits total
      ++ "    run: ".toList ++ colLeft 9 (digits (st .ok + st .fail)))
    ++ countInk .ok "OK".toList (st .ok) ++ countInk .skip "SKIP".toList (st .skip)
    ++ countInk .depf "DEPF".toList (st .depf) ++ countInk .fail "FAIL".toList (st .fail)
    ++ inked none "    ".toList ++ inked gray (colRight 8 ' ' (secs ++ ['s']))

end Joque
