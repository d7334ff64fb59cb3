/-!
# The tagged pointer `list_ptr` (include/joque/bits/list_ptr.hpp)

A pointer is the 64 bit word `std::uintptr_t` (x86-64, as everywhere joque is built).
-/

namespace Joque

/-- `std::uintptr_t` (include/joque/bits/list_ptr.hpp:14,40). -/
abbrev Word := BitVec 64

/-- `enum class mark` (include/joque/bits/list_ptr.hpp:14-19). -/
inductive Mark where
  | nodeType
  | headerType
  | nullType
  deriving DecidableEq, Repr

/-- `list_ptr`: its only member `void* ptr_` (include/joque/bits/list_ptr.hpp:158). -/
structure ListPtr where
  raw : Word
  deriving DecidableEq, Repr

namespace ListPtr

/-- `list_ptr()` and `list_ptr(nullptr)` (include/joque/bits/list_ptr.hpp:25-29). -/
def ofNull : ListPtr := ⟨0⟩

/-- `list_ptr(Node*)` (include/joque/bits/list_ptr.hpp:31-34). -/
def ofNode (item : Word) : ListPtr := ⟨item⟩

/-- `list_ptr(Header*)` (include/joque/bits/list_ptr.hpp:36-43). -/
def ofHeader (item : Word) : ListPtr := if item ≠ 0 then ⟨item ||| 1⟩ else ⟨0⟩

/-- `ctlbit()` (include/joque/bits/list_ptr.hpp:143-146), the low byte of the word and 1. -/
def ctlbit (p : ListPtr) : BitVec 8 := (p.raw &&& 1).setWidth 8

/-- `type()` (include/joque/bits/list_ptr.hpp:45-54). -/
def type (p : ListPtr) : Mark :=
  if p.raw = 0 then .nullType else if p.ctlbit ≠ 0 then .headerType else .nodeType

/-- `pure_ptr()` (include/joque/bits/list_ptr.hpp:148-156). -/
def purePtr (p : ListPtr) : Word := p.raw &&& ~~~ 1

/-- `get<Header>()` (include/joque/bits/list_ptr.hpp:107-123); 0 is `nullptr`. -/
def getHeader (p : ListPtr) : Word := if p.type = .headerType then p.purePtr else 0

/-- `get_node()` (include/joque/bits/list_ptr.hpp:68-71,107-123). -/
def getNode (p : ListPtr) : Word := if p.type = .nodeType then p.purePtr else 0

/-- `find_header()` (include/joque/bits/list_ptr.hpp:133-141); `acc` is `&Accessor::get(*n)`. -/
def findHeader (acc : Word → Word) (p : ListPtr) : Word :=
  if p.getHeader ≠ 0 then p.getHeader
  else if p.getNode ≠ 0 then acc p.getNode
  else 0

/-- which callback `match(tf, uf)` calls, with what (include/joque/bits/list_ptr.hpp:125-131). -/
inductive Call where
  | tf (node : Word)
  | uf (header : Word)
  | nothing
  deriving DecidableEq, Repr

/-- `match(tf, uf)` (include/joque/bits/list_ptr.hpp:88-96,125-131). -/
def match' (p : ListPtr) : Call :=
  if p.getHeader ≠ 0 then .uf p.getHeader
  else if p.getNode ≠ 0 then .tf p.getNode
  else .nothing

/-- `operator==(nullptr_t)` (include/joque/bits/list_ptr.hpp:98-101). -/
def isNull (p : ListPtr) : Bool := p.raw = 0

/-- the defaulted `operator==(const list_ptr&)` (include/joque/bits/list_ptr.hpp:103). -/
def eq (p q : ListPtr) : Bool := p.raw == q.raw

/-- the defaulted `operator<=>` (include/joque/bits/list_ptr.hpp:104): the built-in order of `void*`,
which compares the addresses. -/
def spaceship (p q : ListPtr) : Ordering := compare p.raw.toNat q.raw.toNat

end ListPtr

end Joque
