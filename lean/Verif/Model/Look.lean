import Verif.Model.Process

/-!
# `is_invalidated` as a sequence of file system queries

`Model/Process` answers the questions of `job_traits<process>::is_invalidated` from one file system.
In the program they are separate calls into the operating system: other programs may change files in
between, and calls may fail.  Here the k-th query sees the k-th state of the environment.
-/

namespace Joque

/-- What the queries of `is_invalidated` (src/process.cpp:61-115) see. -/
structure QEnv where
  /-- what is at a path when the k-th query is made, or the text of the error of the query (for
  instance because of missing permission) -/
  files : Nat → Str → Except Str (Option PFile)
  /-- opening the file for reading succeeds -/
  readable : Nat → Str → Bool
  /-- `what()` of the exception of `last_write_time` for a missing file -/
  gone : Str → Str
  /-- which argument of the comparison in `min_element`/`max_element` is evaluated first: the
  order is unspecified -/
  leftFirst : Nat → Bool

/-- A computation making queries (a part of src/process.cpp:26-32,61-115): its result or the text of the
exception, and the number of queries made so far. -/
abbrev Look (α : Type) := QEnv → Nat → Except Str α × Nat

namespace Look

/-- No query (a part of src/process.cpp:61-115). -/
def pure (a : α) : Look α := fun _ k => (.ok a, k)

/-- Sequencing (src/process.cpp:61-115); an exception ends the computation. -/
def bind (m : Look α) (f : α → Look β) : Look β := fun e k =>
  match m e k with
  | (.ok a, k') => f a e k'
  | (.error w, k') => (.error w, k')

end Look

/-- `std::filesystem::exists( p )`: a missing file is no error (src/process.cpp:29,64,87,96) -/
def lookExists (p : Str) : Look Bool := fun e k =>
  (match e.files k p with
    | .ok o => .ok o.isSome
    | .error w => .error w, k + 1)

/-- `std::filesystem::last_write_time( p )`: a missing file is an error (src/process.cpp:30) -/
def lookTime (p : Str) : Look Int := fun e k =>
  (match e.files k p with
    | .ok (some f) => .ok f.time
    | .ok none => .error (e.gone p)
    | .error w => .error w, k + 1)

/-- `int x = 0; std::ifstream f( p ); f >> x;` (src/process.cpp:69-71): streams do not throw, and a
file that cannot be read leaves 0 in `x` -/
def lookInt (p : Str) : Look Int := fun e k =>
  (match e.files k p with
    | .ok (some f) => .ok (if e.readable k p then readInt f.content else 0)
    | _ => .ok 0, k + 1)

/-- `path_to_write_time` (src/process.cpp:26-32) -/
def lookWriteTime (p : Str) : Look Int :=
  Look.bind (lookExists p) fun b => if b then lookTime p else Look.pure 0

/-- The two projections of one comparison `comp( proj( a ), proj( b ) )` (src/process.cpp:93-94,100-101). -/
def lookPair (a b : Str) : Look (Int × Int) := fun e k =>
  if e.leftFirst k then
    Look.bind (lookWriteTime a) (fun x => Look.bind (lookWriteTime b) fun y => Look.pure (x, y)) e k
  else
    Look.bind (lookWriteTime b) (fun y => Look.bind (lookWriteTime a) fun x => Look.pure (x, y)) e k

/-- rest of `std::ranges::min_element` with projection (src/process.cpp:93-94) -/
def lookMin : Str → List Str → Look Str
  | m, [] => Look.pure m
  | m, x :: xs => Look.bind (lookPair x m) fun t => if t.1 < t.2 then lookMin x xs else lookMin m xs

/-- rest of `std::ranges::max_element` with projection (src/process.cpp:100-101) -/
def lookMax : Str → List Str → Look Str
  | m, [] => Look.pure m
  | m, x :: xs => Look.bind (lookPair m x) fun t => if t.1 < t.2 then lookMax x xs else lookMax m xs

/-- `std::ranges::all_of( p.output, exists )` (src/process.cpp:85-88) -/
def lookAll : List Str → Look Bool
  | [] => Look.pure true
  | x :: xs => Look.bind (lookExists x) fun b => if b then lookAll xs else Look.pure false

/-- the retcode file (src/process.cpp:63-79) -/
def lookRetcode (p : Process) : Look (Option InvalResult) :=
  match p.retcodeFile with
  | none => Look.pure none
  | some f => Look.bind (lookExists f) fun b =>
    if b then
      Look.bind (lookInt f) fun i => Look.pure <|
        if i ≠ 0 then
          some { invalidated := true
                 log := "last retcode is nonzero: ".toList ++ showInt i ++ " in ".toList ++ f }
        else none
    else Look.pure (some { invalidated := true, log := "no retcode file".toList ++ f })

/-- comparison of times (src/process.cpp:93-115) -/
def lookStale (tf : TimeFmt) (o : Str) (os : List Str) (i : Str) (is : List Str) :
    Look InvalResult :=
  Look.bind (lookMin o os) fun oldest =>
  Look.bind (lookExists oldest) fun b =>
  if b then
    Look.bind (lookMax i is) fun latest =>
    Look.bind (lookWriteTime oldest) fun t1 =>
    Look.bind (lookWriteTime latest) fun t2 => Look.pure
      { invalidated := decide (t1 ≤ t2)
        log := "oldest output ".toList ++ oldest ++ " t: ".toList ++ tf t1
          ++ " \n latest input ".toList ++ latest ++ " t: ".toList ++ tf t2 }
  else Look.pure { invalidated := true, log := "missing output: ".toList ++ oldest }

/-- `job_traits<process>::is_invalidated` (src/process.cpp:61-115). -/
def Process.ask (tf : TimeFmt) (p : Process) : Look InvalResult :=
  Look.bind (lookRetcode p) fun r =>
  match r with
  | some r => Look.pure r
  | none =>
    match p.output with
    | [] => Look.pure { invalidated := true, log := "no output".toList }
    | o :: os =>
      match p.input with
      | [] => Look.bind (lookAll (o :: os)) fun b => Look.pure
          { invalidated := b, log := "output existance".toList }
      | i :: is => lookStale tf o os i is

/-- what `job<process>::is_invalidated` does (include/joque/job.hpp:37-40) -/
def Process.askOut (tf : TimeFmt) (p : Process) (e : QEnv) (k : Nat) : InvalOut :=
  match (p.ask tf e k).1 with
  | .ok r => .answer r
  | .error w => .throws w

end Joque
