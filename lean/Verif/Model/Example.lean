import Verif.Model.Task
import Verif.Model.Format

/-!
# The example program (example.cpp) and the program in README.md

Tasks are created in loops, so their addresses are given by functions of the loop variable.
-/

namespace Joque

/-- `m[k] = v` for a `std::map` with string keys: entries stay in ascending order (example.cpp:10) -/
def mapSet {α : Type} (k : Str) (v : α) : List (Str × α) → List (Str × α)
  | [] => [(k, v)]
  | e :: m => if k < e.1 then (k, v) :: e :: m else if k = e.1 then (k, v) :: m else e :: mapSet k v m

/-- `std::stoi( s )` (example.cpp:26): white space, sign, decimal digits, anything; `none`: it throws,
because there is no digit or the number is no `int` -/
def stoi (s : Str) : Option Int :=
  let s := s.dropWhile isWs
  let neg := s.head? = some '-'
  let s := if s.head? = some '-' ∨ s.head? = some '+' then s.tail else s
  let ds := s.takeWhile Char.isDigit
  let v : Int := if neg then -(Nat.ofDigitChars 10 ds 0 : Int) else Nat.ofDigitChars 10 ds 0
  if ds = [] ∨ v < -2147483648 ∨ 2147483647 < v then none else some v

/-- the lambda sleeps and does `return { 0 };` (example.cpp:10-16) -/
def exampleTask : Task :=
  { job := some (.callable (.ret { retcode := some 0, output := [], log := [] }))
    dependsOn := [], runAfter := [], invalidatedBy := [], resources := [], hidden := false }

/-- key of the i-th task (example.cpp:10) -/
def exampleKey (i : Nat) : Str := ['t', 'a', 's', 'k', '_'] ++ showNat i

/-- `gen_tasks( n )` (example.cpp:6-19): the tasks of the set; `addr i` is the address of the i-th -/
def genTasks (addr : Nat → TaskId) (n : Nat) : List (Str × TaskId) :=
  (List.range n).foldl (fun m i => mapSet (exampleKey i) (addr i) m) []

/-- `ts` after example.cpp:25-28 -/
def exampleSet (a b : Nat → TaskId) (n : Nat) : TaskSet :=
  .mk [] (mapSet ['b'] (.mk (genTasks b n) []) (mapSet ['a'] (.mk (genTasks a n) []) []))

/-- What `main` does (example.cpp:21-30). -/
inductive MainOut where
  /-- returns without executing anything -/
  | exits (code : Int)
  /-- an exception leaves `main` -/
  | terminates
  /-- `gen_tasks` is called with a number of more than 2^63 tasks: memory is exhausted -/
  | exhausts
  /-- `joque::exec( ts ).run()` for this task set (example.cpp:29), then 0 is returned -/
  | executes (ts : TaskSet)

/-- `main` (example.cpp:21-30); a negative `int` becomes a huge `std::size_t` -/
def exampleMain (a b : Nat → TaskId) (argv : List Str) : MainOut :=
  match argv with
  | [_, arg] =>
    match stoi arg with
    | none => .terminates
    | some n => if n < 0 then .exhausts else .executes (exampleSet a b n.toNat)
  | _ => .exits 1

/-- The tasks of the example in README.md (lines 55-88), reading `ts[…]` as `ts.tasks[…]`: the second
assignment to `A` replaces the task the first one made, `B` keeps referring to it.  `jb` is the
process of `B`, `ja` the lambda of `A`. -/
def readmeStore (A B : TaskId) (ja jb : Job) (st : Store) : Store :=
  (st.set B { job := some jb, dependsOn := [A], runAfter := [], invalidatedBy := []
              resources := [], hidden := false }).set A
    { job := some ja, dependsOn := [B], runAfter := [], invalidatedBy := []
      resources := [], hidden := false }

/-- the task set of README.md -/
def readmeSet (A B : TaskId) : TaskSet := .mk [(['A'], A), (['B'], B)] []

end Joque
