import Verif.Model.Basic

/-!
# How `run` paces an execution (src/exec_coro.cpp:79-89)

Times are readings of `std::chrono::steady_clock`, as integers; the clock never goes back.  Overflow of
`next` (after some 292 years in nanoseconds) is not modelled.
-/

namespace Joque

/-- One call of `exec_coro::run( period )` (src/exec_coro.cpp:79-89): the time `t0` read first (line 81),
the period, and what the environment does in iteration `k`: how much later than possible
`sleep_until` returns (line 83), how long `tick` takes (line 84). -/
structure Pace where
  t0 : Int
  period : Int
  late : Nat → Nat
  len : Nat → Nat

/-- at line 82 of src/exec_coro.cpp: the time, and the variable `next` -/
structure PaceSt where
  now : Int
  next : Int
  deriving DecidableEq, Repr

/-- `sleep_until( next )` (src/exec_coro.cpp:83) in iteration `k` returns not before `next`; at once, up
to the delay, if `next` is over -/
def Pace.wake (P : Pace) (k : Nat) (s : PaceSt) : Int := max s.now s.next + P.late k

/-- iteration `k` of the loop (src/exec_coro.cpp:82-86) -/
def Pace.iter (P : Pace) (k : Nat) (s : PaceSt) : PaceSt :=
  { now := P.wake k s + P.len k, next := s.next + P.period }

/-- before iteration `k` (src/exec_coro.cpp:81-86) -/
def Pace.before (P : Pace) : Nat → PaceSt
  | 0 => { now := P.t0, next := P.t0 }
  | k + 1 => P.iter k (P.before k)

/-- when the `k`-th call of `tick` begins (src/exec_coro.cpp:84) -/
def Pace.begins (P : Pace) (k : Nat) : Int := P.wake k (P.before k)

/-- when the `k`-th call of `tick` returns (src/exec_coro.cpp:84) -/
def Pace.ends (P : Pace) (k : Nat) : Int := (P.before (k + 1)).now

/-- how long `sleep_until` is asked to sleep in iteration `k` (src/exec_coro.cpp:83) -/
def Pace.asked (P : Pace) (k : Nat) : Int := max 0 ((P.before k).next - (P.before k).now)

end Joque
