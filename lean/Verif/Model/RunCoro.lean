import Verif.Model.Basic

/-!
# The vector of `run_coro` objects (src/run_coro.hpp, src/exec.cpp:176-193, 310, 324)

`Model/Exec` says what `std::erase_if(coros, …)` leaves in the vector; here is how it gets there.
`std::erase_if` is `std::remove_if` (find the first element to remove, then move-assign every
element to keep to the next free position) followed by `coros.erase(it, coros.end())`, as in
libstdc++ and libc++.  The predicate ticks coroutines, which the standard does not foresee for
predicates, but both implementations call it exactly as modelled.
-/

namespace Joque

/-- `run_coro` (src/run_coro.hpp:14-127): `node_` and `h_`, a coroutine frame or null -/
structure RC where
  ref : Node
  h : Option Nat
  deriving DecidableEq, Repr

/-- `a = std::move(b)` (src/run_coro.hpp:71-75): the two objects afterwards -/
def RC.moveAssign (a b : RC) : RC × RC := ({ a with h := b.h }, { b with h := a.h })

/-- `run_coro{ std::move(b) }` (src/run_coro.hpp:65-69): the new object and `b` afterwards; `h_` of
the new object starts out null -/
def RC.moveNew (b : RC) : RC × RC := ({ ref := b.ref, h := b.h }, { b with h := none })

/-- frames destroyed by `~run_coro()` (src/run_coro.hpp:118-122) of these objects, in order -/
def destroyAll (v : List RC) : List Nat := v.filterMap RC.h

/-- `std::find_if` from position `first` on, `k` elements left (part of `std::erase_if`, src/exec.cpp:181);
`p` may change the state.  The result is the state and the position found (the length of the vector if
none). -/
def findIf {σ : Type} (p : σ → RC → σ × Bool) (v : List RC) : Nat → Nat → σ → σ × Nat
  | 0, first, s => (s, first)
  | k + 1, first, s =>
    match v[first]? with
    | none => (s, first)
    | some x =>
      let r := p s x
      if r.2 then (r.1, first) else findIf p v k (first + 1) r.1

/-- The loop of `std::remove_if` (part of `std::erase_if`, src/exec.cpp:181) after the first element to
remove was found: `result` is the next free position, `first` the next element, `k` elements are left. -/
def removeLoop {σ : Type} (p : σ → RC → σ × Bool) :
    Nat → Nat → Nat → List RC → σ → σ × List RC × Nat
  | 0, result, _, v, s => (s, v, result)
  | k + 1, result, first, v, s =>
    match v[first]?, v[result]? with
    | some x, some y =>
      let r := p s x
      if r.2 then removeLoop p k result (first + 1) v r.1
      else
        let m := y.moveAssign x
        removeLoop p k (result + 1) (first + 1) ((v.set result m.1).set first m.2) r.1
    | _, _ => (s, v, result)

/-- What `std::erase_if(coros, p)` does (src/exec.cpp:181): state, remaining vector, frames
destroyed. -/
def eraseIf {σ : Type} (p : σ → RC → σ × Bool) (s : σ) (v : List RC) : σ × List RC × List Nat :=
  let f := findIf p v v.length 0 s
  if f.2 = v.length then (f.1, v, [])
  else
    let r := removeLoop p (v.length - f.2 - 1) f.2 (f.2 + 1) v f.1
    (r.1, r.2.1.take r.2.2, destroyAll (r.2.1.drop r.2.2))

/-- `coros.push_back(std::move(x))` (src/exec.cpp:324): vector afterwards and frames destroyed.
With `grow` the elements are moved to new storage and the old objects destroyed; in any case the
temporary is destroyed. -/
def pushBack (grow : Bool) (v : List RC) (x : RC) : List RC × List Nat :=
  if grow then
    ((v.map fun e => e.moveNew.1) ++ [x.moveNew.1],
      destroyAll (v.map fun e => e.moveNew.2) ++ destroyAll [x.moveNew.2])
  else (v ++ [x.moveNew.1], destroyAll [x.moveNew.2])

end Joque
