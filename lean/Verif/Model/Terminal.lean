import Verif.Model.PrintVisitor

/-!
# The default visitor on a stream that can fail

`print_exec_visitor` writes to `std::cout` (src/print_exec_visitor.cpp:28-123, src/format.cpp:112-188), one
`<<` after the other.  Writing a character may fail (closed pipe, full device): then the state of the stream
is bad, and every further `<<` does nothing.  A program may have asked for exceptions with
`std::cout.exceptions(std::ios::badbit)`; then the `<<` that failed throws, out of the callback.

What is buffered between stream and device is not modelled: `out` is what the stream accepted.
-/

namespace Joque

/-- `std::cout` (src/print_exec_visitor.cpp:28-123): its state and what it accepted. -/
structure Stream where
  good : Bool
  out : Str
  deriving DecidableEq, Repr

/-- One character (src/format.cpp:112-188); `dev i`: the device takes the `i`-th character. -/
def Stream.put (dev : Nat → Bool) (t : Stream) (c : Char) : Stream :=
  if t.good then
    if dev t.out.length then { t with out := t.out ++ [c] } else { t with good := false }
  else t

/-- A text (src/format.cpp:112-188). -/
def Stream.write (dev : Nat → Bool) (t : Stream) (text : Str) : Stream := text.foldl (Stream.put dev) t

/-- One callback of the visitor (src/print_exec_visitor.cpp:28-123); `text` is what an item writes
(`Item.stdout`). -/
def callWith (E : VisitEnv) (text : Item → Str) (dev : Nat → Bool) (v : Visitor) (t : Stream) (e : Event) :
    Visitor × Stream :=
  ((v.on E e).1, t.write dev ((v.on E e).2.flatMap text))

/-- The callbacks of a portion, the first of them being number `k`, until one throws
(src/print_exec_visitor.cpp:28-123); `exc`: the program asked for exceptions.  (The visitor is left as if the
callback had ended, simplification: it is not called again in this execution.) -/
def callbacks (E : VisitEnv) (text : Item → Str) (dev : Nat → Bool) (exc : Bool) :
    Visitor → Stream → Nat → List Event → Visitor × Stream × Option Nat
  | v, t, _, [] => (v, t, none)
  | v, t, k, e :: es =>
    let p := callWith E text dev v t e
    if exc && t.good && !p.2.good then (p.1, p.2, some k)
    else callbacks E text dev exc p.1 p.2 (k + 1) es

/-- An execution (src/exec.cpp:295-343), its visitor and `std::cout`. -/
structure TermSt where
  s : St
  v : Visitor
  t : Stream

/-- One move (src/exec.cpp:134-156,295-343): if a callback of the portion throws, it is a portion with that
fault. -/
def TermSt.step (C : Cfg) (E : VisitEnv) (text : Item → Str) (dev : Nat → Bool) (exc : Bool) (w : TermSt)
    (m : Move) : TermSt :=
  let s' := Joque.step C w.s m
  let r := callbacks E text dev exc w.v w.t 0 (s'.trace.drop w.s.trace.length)
  { s := match r.2.2 with
      | none => s'
      | some k => Joque.step C w.s (.visThrow k)
    v := r.1
    t := r.2.1 }

/-- An execution with a new visitor (src/exec.cpp:283-343, src/print_exec_visitor.cpp:21-26). -/
def TermSt.exec (C : Cfg) (E : VisitEnv) (text : Item → Str) (dev : Nat → Bool) (exc verbose : Bool)
    (ms : List Move) : TermSt :=
  ms.foldl (TermSt.step C E text dev exc)
    { s := St.init, v := Visitor.init verbose, t := { good := true, out := [] } }

end Joque
