import Verif.Model.Basic

/-!
# A terminal

One that is wide enough for every line.  Escape sequences have no effect on the characters shown:
the colours and the visibility of the cursor, all this program uses, have none.
-/

namespace Joque

inductive EscMode where
  /-- ordinary text -/
  | text
  /-- after ESC -/
  | esc
  /-- after ESC [, up to the first of the characters @ to ~ -/
  | csi
  deriving DecidableEq, Repr

structure Term where
  /-- the lines above the cursor -/
  done : List Str
  /-- the line the cursor is in -/
  line : Str
  col : Nat
  mode : EscMode
  deriving DecidableEq, Repr

def Term.blank : Term := { done := [], line := [], col := 0, mode := .text }

/-- One character arrives. -/
def Term.putc (t : Term) (c : Char) : Term :=
  match t.mode with
  | .esc => { t with mode := if c = '[' then .csi else .text }
  | .csi => { t with mode := if 64 ≤ c.toNat ∧ c.toNat ≤ 126 then .text else .csi }
  | .text =>
    if c = '\x1b' then { t with mode := .esc }
    else if c = '\r' then { t with col := 0 }
    else if c = '\n' then { t with done := t.done ++ [t.line], line := [], col := 0 }
    else { t with
            line := t.line.take t.col ++ List.replicate (t.col - t.line.length) ' ' ++
              c :: t.line.drop (t.col + 1)
            col := t.col + 1 }

def Term.feed (t : Term) (s : Str) : Term := s.foldl Term.putc t

/-- printable ASCII characters only -/
def Printable (s : Str) : Prop := ∀ c ∈ s, 32 ≤ c.toNat ∧ c.toNat < 127

/-- Writing `s` has, wherever the cursor is, the effect of writing the printable text `v`. -/
def Displays (s v : Str) : Prop :=
  Printable v ∧ ∀ t : Term, t.mode = .text → t.feed s = t.feed v

/-- `s` at the left of a column of width `w` -/
def colLeft (w : Nat) (s : Str) : Str := s ++ List.replicate (w - s.length) ' '

/-- `s` at the right of a column of width `w`, filled up with `c` -/
def colRight (w : Nat) (c : Char) (s : Str) : Str := List.replicate (w - s.length) c ++ s

/-- the decimal digits of a number -/
def digits (n : Nat) : Str := Nat.toDigits 10 n

/-- What the line of a task should look like: time, counter, status, name, duration. -/
def taskLine (hms : Str) (count total : Nat) (status name : Str) (dur : Option Str) : Str :=
  hms ++ [' ', ' '] ++ colRight (digits total).length '0' (digits count) ++ ['/'] ++ digits total
    ++ [' ', ' '] ++ colRight 4 ' ' status ++ [' ', ' '] ++ colLeft 60 (name.take 60) ++ [' ', ' ']
    ++ (match dur with
      | some d => [' ', ' '] ++ colRight 8 ' ' d
      | none => [])

end Joque
