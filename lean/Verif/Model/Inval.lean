import Verif.Model.Event

/-!
# Invalidation (src/exec.cpp:195-230)
-/

namespace Joque

/-- What a call of `n->t.job->is_invalidated()` does (include/joque/job.hpp:16): returns a value
or lets an exception escape. -/
inductive InvalOut where
  | answer (r : InvalResult)
  | throws (what : Str)
  deriving DecidableEq, Repr

/-- State of `propagate_invalidation` (src/exec.cpp:195-230): the `invalidated` fields of all nodes and
the visitor calls so far. -/
structure PSt where
  inval : Node → Inval
  events : List Event

/-- Outcome of `propagate_invalidation` (src/exec.cpp:195-230). -/
inductive PropOut where
  | ok (s : PSt)
  /-- `n->t.job` is null and is dereferenced (src/exec.cpp:202) -/
  | ub (events : List Event)
  /-- `is_invalidated` threw -/
  | threw (what : Str) (events : List Event)
  /-- `assert(invalidated == INVALID)` failed (src/exec.cpp:217) -/
  | assertFailed
  /-- model fuel exhausted (shown impossible) -/
  | outOfFuel

/-- `n->invalidated = v` (src/exec.cpp:204,207,225). -/
def setInval (f : Node → Inval) (n : Node) (v : Inval) : Node → Inval :=
  fun m => if m = n then v else f m

/-- Outcome of the first loop (src/exec.cpp:200-210). -/
inductive QueryOut where
  | ok (toPropagate : List Node) (s : PSt)
  | ub (events : List Event)
  | threw (what : Str) (events : List Event)

/-- First loop of `propagate_invalidation` (src/exec.cpp:200-210): ask every job. -/
def queryLoop (hasJob : Node → Bool) (ask : Node → InvalOut) :
    List Node → List Node → PSt → QueryOut
  | [], tp, s => .ok tp s
  | n :: ns, tp, s =>
    if hasJob n then
      match ask n with
      | .throws w => .threw w s.events
      | .answer r =>
        if r.invalidated then
          queryLoop hasJob ask ns (sinsert n tp)
            { inval := setInval s.inval n .invalid
              events := s.events ++ [.jobInval n .invalid r.log] }
        else
          queryLoop hasJob ask ns tp
            { inval := setInval s.inval n .valid
              events := s.events ++ [.jobInval n .valid r.log] }
    else .ub s.events

/-- Inner loop over the INVALIDATED_BY in-edges of the extracted node (src/exec.cpp:218-228). -/
def propEdges (seen : List Node) : List Edge → List Node → PSt → List Node × PSt
  | [], tp, s => (tp, s)
  | e :: es, tp, s =>
    if e.src ∈ seen then propEdges seen es tp s
    else
      propEdges seen es (sinsert e.src tp)
        { inval := setInval s.inval e.src .invalid
          events := s.events ++ [.depInval e.src e.tgt] }

/-- `while (!to_propagate.empty())` (src/exec.cpp:212-229); `extract(begin())` takes the node
with the lowest address. -/
def propLoop (g : Dag) : Nat → List Node → List Node → PSt → PropOut
  | 0, _, _, _ => .outOfFuel
  | _ + 1, [], _, s => .ok s
  | fuel + 1, p :: tp, seen, s =>
    let seen' := p :: seen
    if s.inval p ≠ .invalid then .assertFailed
    else
      let r := propEdges seen' (filterEdges .invalidatedBy (g.inEdges p)) tp s
      propLoop g fuel r.1 seen' r.2

/-- `propagate_invalidation` (src/exec.cpp:195-230); `inval0` are the initial `invalidated`
fields. -/
def propagateInvalidation (g : Dag) (hasJob : Node → Bool) (ask : Node → InvalOut)
    (toProcess : List Node) (inval0 : Node → Inval) : PropOut :=
  match queryLoop hasJob ask toProcess [] { inval := inval0, events := [] } with
  | .ub ev => .ub ev
  | .threw w ev => .threw w ev
  | .ok tp s => propLoop g (g.nodes.length + 1) tp tp s

end Joque
