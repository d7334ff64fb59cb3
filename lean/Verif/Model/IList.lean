/-!
# The intrusive doubly linked list (include/joque/bits/list.hpp)

All headers reached through one `Accessor` form a *list space*: the headers inside `list` objects
("heads") and the headers inside nodes.  Heads and nodes are identified by the address of the
object that contains them.  Touching a header that does not exist (any more) is undefined
behaviour: `none`.  That `list_ptr` stores `Ptr` faithfully is C30.
-/

namespace Joque

/-- `list_ptr` (include/joque/bits/list_ptr.hpp:10-159): null, a list header, or a node. -/
inductive Ptr where
  | null
  | head (l : Nat)
  | node (n : Nat)
  deriving DecidableEq, Repr

/-- `get_node()` (include/joque/bits/list_ptr.hpp:68-71). -/
def Ptr.getNode : Ptr → Option Nat
  | .node n => some n
  | _ => none

/-- The headers of one accessor; a header is named by the pointer whose `find_header()` gives it
(include/joque/bits/list_ptr.hpp:133-141).  `nx`/`pv`: members `next`, `prev`
(include/joque/bits/list.hpp:45-46); `live`: the header is within its lifetime. -/
structure LS where
  nx : Ptr → Ptr
  pv : Ptr → Ptr
  live : Ptr → Bool

/-- No header exists (include/joque/bits/list.hpp:38-72). -/
def LS.empty : LS := { nx := fun _ => .null, pv := fun _ => .null, live := fun _ => false }

/-- Function update: one header member changes (include/joque/bits/list.hpp:45-46). -/
def fset {α β : Type} [DecidableEq α] (f : α → β) (a : α) (b : β) : α → β :=
  fun x => if x = a then b else f x

namespace LS

/-- Read `h->next` (include/joque/bits/list.hpp:45). -/
def getNx (s : LS) (h : Ptr) : Option Ptr := if s.live h then some (s.nx h) else none

/-- Read `h->prev` (include/joque/bits/list.hpp:46). -/
def getPv (s : LS) (h : Ptr) : Option Ptr := if s.live h then some (s.pv h) else none

/-- `h->next = v` (include/joque/bits/list.hpp:45). -/
def setNx (s : LS) (h v : Ptr) : Option LS :=
  if s.live h then some { s with nx := fset s.nx h v } else none

/-- `h->prev = v` (include/joque/bits/list.hpp:46). -/
def setPv (s : LS) (h v : Ptr) : Option LS :=
  if s.live h then some { s with pv := fset s.pv h v } else none

/-- `if (auto* h = p.find_header()) h->prev = v` (include/joque/bits/list.hpp:63-64,193-194). -/
def setPv? (s : LS) (p v : Ptr) : Option LS := if p = .null then some s else s.setPv p v

/-- `if (auto* h = p.find_header()) h->next = v` (include/joque/bits/list.hpp:65-66,196-197). -/
def setNx? (s : LS) (p v : Ptr) : Option LS := if p = .null then some s else s.setNx p v

/-- construction of a header: `next = prev = nullptr` (include/joque/bits/list.hpp:45-48). -/
def construct (s : LS) (h : Ptr) : LS :=
  { nx := fset s.nx h .null, pv := fset s.pv h .null, live := fset s.live h true }

/-- `~list_header()` (include/joque/bits/list.hpp:188-198). -/
def destruct (s : LS) (h : Ptr) : Option LS :=
  (s.getNx h).bind fun n =>
  (s.getPv h).bind fun p =>
  (s.setPv? n p).bind fun s =>
  (s.getPv h).bind fun p =>
  (s.getNx h).bind fun n =>
  (s.setNx? p n).bind fun s =>
  some { s with live := fset s.live h false }

/-- `list_link_next(ptr, next)` (include/joque/bits/list.hpp:224-239). -/
def linkNext (s : LS) (ptr : Ptr) (next : Nat) : Option LS :=
  (s.getNx ptr).bind fun n =>
  (s.setNx (.node next) n).bind fun s =>
  (s.setPv? n (.node next)).bind fun s =>
  (s.setNx ptr (.node next)).bind fun s =>
  s.setPv (.node next) ptr

/-- move assignment of `list_header`, `this ≠ &other` (include/joque/bits/list.hpp:56-69). -/
def moveAssign (s : LS) (this other : Ptr) : Option LS :=
  if this = other then some s else
  (s.getNx other).bind fun n =>
  (s.setNx other .null).bind fun s =>
  (s.setNx this n).bind fun s =>
  (s.getPv other).bind fun p =>
  (s.setPv other .null).bind fun s =>
  (s.setPv this p).bind fun s =>
  (s.setPv? n this).bind fun s =>
  (s.getPv this).bind fun p =>
  (s.getNx this).bind fun n =>
  s.setNx? p n

/-- move construction of a `list`: member-wise, `header_` is default initialised and then
assigned (include/joque/bits/list.hpp:52-55,144). -/
def moveConstruct (s : LS) (this other : Ptr) : Option LS :=
  (s.construct this).moveAssign this other

/-- `begin()` (include/joque/bits/list.hpp:312-317): the node pointer in the iterator. -/
def begin' (s : LS) (l : Nat) : Option (Option Nat) := (s.getNx (.head l)).map Ptr.getNode

/-- `end()` (include/joque/bits/list.hpp:326-330). -/
def end' : Option Nat := none

/-- `++it` (include/joque/bits/list.hpp:282-287); `Accessor::get(*node_)` with a null `node_` is
undefined behaviour. -/
def inc (s : LS) : Option Nat → Option (Option Nat)
  | none => none
  | some n => (s.getNx (.node n)).map Ptr.getNode

/-- `--it` (include/joque/bits/list.hpp:289-294). -/
def dec (s : LS) : Option Nat → Option (Option Nat)
  | none => none
  | some n => (s.getPv (.node n)).map Ptr.getNode

/-- `*it` (include/joque/bits/list.hpp:254-266). -/
def deref (s : LS) : Option Nat → Option Nat
  | none => none
  | some n => if s.live (.node n) then some n else none

/-- `front()` (include/joque/bits/list.hpp:154-157). -/
def front (s : LS) (l : Nat) : Option Nat := (s.begin' l).bind s.deref

/-- `back()` (include/joque/bits/list.hpp:163-166): `*++end()`. -/
def back (s : LS) (_l : Nat) : Option Nat := (s.inc end').bind s.deref

/-- `empty()` (include/joque/bits/list.hpp:353-357). -/
def empty' (s : LS) (l : Nat) : Option Bool := (s.getNx (.head l)).map (· == .null)

/-- The nodes a loop `for (auto it = begin(); it != end(); ++it)` (src/exec.cpp:299, include/joque/bits/list.hpp:282-287,312-330)
visits from `it` on, with at most `fuel` iterations. -/
def walk (s : LS) : Nat → Option Nat → Option (List Nat)
  | _, none => some []
  | 0, some _ => none
  | fuel + 1, some n => (s.inc (some n)).bind fun it => (walk s fuel it).map (n :: ·)

/-- All nodes of the list, by iteration from `begin()` (include/joque/bits/list.hpp:312-317). -/
def toList (s : LS) (fuel l : Nat) : Option (List Nat) := (s.begin' l).bind (s.walk fuel)

/-- `delete node` for a node that has nothing but this header
(include/joque/bits/list.hpp:245). -/
def deleteNode (s : LS) (n : Nat) : Option LS := s.destruct (.node n)

/-- `list_delete_all_next(header)` (include/joque/bits/list.hpp:241-246) in a program state `σ`
that contains the list space; `del` is the `delete` expression. -/
def deleteAll {σ : Type} (ls : σ → LS) (del : σ → Nat → Option σ) (l : Nat) : Nat → σ → Option σ
  | 0, _ => none
  | fuel + 1, s =>
    ((ls s).getNx (.head l)).bind fun p =>
      match p.getNode with
      | none => some s
      | some n => (del s n).bind (deleteAll ls del l fuel)

/-- `~list()`: the body (include/joque/bits/list.hpp:369-373), then the member `header_`. -/
def destroyList (s : LS) (l fuel : Nat) : Option LS :=
  (deleteAll id deleteNode l fuel s).bind (·.destruct (.head l))

/-- `clear_if(f)` from `iter` on (include/joque/bits/list.hpp:359-367). -/
def clearIf {σ : Type} (ls : σ → LS) (del : σ → Nat → Option σ) (f : Nat → Bool) :
    Nat → Option Nat → σ → Option σ
  | _, none, s => some s
  | 0, some _, _ => none
  | fuel + 1, some n, s =>
    ((ls s).inc (some n)).bind fun it =>
      if f n then (del s n).bind (clearIf ls del f fuel it) else clearIf ls del f fuel it s

end LS

/-- Operations on a list space by a program (include/joque/bits/list.hpp:142-181). -/
inductive LOp where
  /-- `list l;` -/
  | newList (l : Nat)
  /-- `l.emplace_front(...)`, the new node at address `n` (list.hpp:214-222,338-345) -/
  | emplaceFront (l n : Nat)
  /-- a node object is created on its own -/
  | newNode (n : Nat)
  /-- `l.link_front(n)` (list.hpp:347-351) -/
  | linkFront (l n : Nat)
  /-- the node object is destroyed -/
  | deleteNode (n : Nat)
  /-- `list l{std::move(m)};` -/
  | moveList (l m : Nat)
  /-- `l.clear_if(f)` -/
  | clearIf (l : Nat) (f : Nat → Bool)
  /-- end of lifetime of the list object -/
  | destroyList (l : Nat)

/-- One operation (include/joque/bits/list.hpp:142-181; `fuel` bounds loops). -/
def LS.op (fuel : Nat) (s : LS) : LOp → Option LS
  | .newList l => some (s.construct (.head l))
  | .emplaceFront l n => (s.construct (.node n)).linkNext (.head l) n
  | .newNode n => some (s.construct (.node n))
  | .linkFront l n => s.linkNext (.head l) n
  | .deleteNode n => s.deleteNode n
  | .moveList l m => s.moveConstruct (.head l) (.head m)
  | .clearIf l f => (s.begin' l).bind fun it => LS.clearIf id LS.deleteNode f fuel it s
  | .destroyList l => s.destroyList l fuel

/-- A program: operations of include/joque/bits/list.hpp:142-181 in sequence. -/
def LS.ops (fuel : Nat) : List LOp → LS → Option LS
  | [], s => some s
  | o :: os, s => (s.op fuel o).bind (LS.ops fuel os)

end Joque
