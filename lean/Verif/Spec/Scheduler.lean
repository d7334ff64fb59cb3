import Verif.Model.Event

/-!
# A small scheduler

What an execution is supposed to be, as an abstract machine with five rules.  It knows nothing of
graphs, coroutines, portions, ticks, flags or queues: it is told what the tasks are and how they
depend on each other, and its state says which jobs run, which have ended and wait for their record,
and which tasks have got their record.
-/

namespace Joque

/-- What is to be executed.  `α` identifies tasks. -/
structure Workload (α : Type) where
  /-- the tasks -/
  task : α → Prop
  /-- `after a b`: `a` is to be executed after `b` -/
  after : α → α → Prop
  /-- `requires a b`: `a` makes no sense if `b` failed -/
  requires : α → α → Prop
  /-- the task is out of date -/
  stale : α → Prop
  /-- what the task needs for itself while its job executes -/
  resources : α → List Res
  /-- the return code and the output the job of the task produces -/
  result : α → Int → List Chunk → Prop
  /-- how many jobs may execute at once -/
  limit : Nat

/-- What one sees of a task: its job begins, its job ends, its record is handed out. -/
inductive Act (α : Type) where
  | begin (n : α)
  | end (n : α)
  | record (n : α) (st : Status) (rc : Int) (out : List Chunk)
  deriving DecidableEq, Repr

/-- The state of the machine. -/
structure Sched (α : Type) where
  running : List α
  ended : List α
  done : List (α × Status)
  deriving DecidableEq, Repr

variable {α : Type} [DecidableEq α]

/-- nothing has happened -/
def Sched.init : Sched α := ⟨[], [], []⟩

/-- `n` has its record -/
def Sched.Done (σ : Sched α) (n : α) : Prop := ∃ st, (n, st) ∈ σ.done

/-- nothing has happened to `n` -/
def Sched.Untouched (σ : Sched α) (n : α) : Prop := n ∉ σ.running ∧ n ∉ σ.ended ∧ ¬ σ.Done n

/-- some task `n` requires failed, or was not run because of a failure -/
def Sched.Spoilt (P : Workload α) (σ : Sched α) (n : α) : Prop :=
  ∃ m, P.requires n m ∧ ((m, .fail) ∈ σ.done ∨ (m, .depf) ∈ σ.done)

/-- It is the turn of `n`: nothing has happened to it, everything it is ordered after is done. -/
def Sched.Turn (P : Workload α) (σ : Sched α) (n : α) : Prop :=
  P.task n ∧ σ.Untouched n ∧ ∀ m, P.after n m → σ.Done m

/-- The rules of the machine. -/
inductive Sched.Step (P : Workload α) : Sched α → Act α → Sched α → Prop
  /-- a job begins: it is its turn, nothing it requires failed, it is out of date, its resources
  are free, and there is a free thread -/
  | begin {σ : Sched α} {n : α} (turn : σ.Turn P n) (sound : ¬ σ.Spoilt P n) (stale : P.stale n)
      (free : ∀ m ∈ σ.running, ∀ r ∈ P.resources n, r ∉ P.resources m)
      (thread : σ.running.length < P.limit) :
      Sched.Step P σ (.begin n) { σ with running := n :: σ.running }
  /-- a job that runs ends -/
  | end {σ : Sched α} {n : α} (run : n ∈ σ.running) :
      Sched.Step P σ (.end n) { σ with running := σ.running.erase n, ended := n :: σ.ended }
  /-- a task whose job has ended gets the record the job produced -/
  | result {σ : Sched α} {n : α} {rc : Int} {out : List Chunk} (ended : n ∈ σ.ended)
      (res : P.result n rc out) :
      Sched.Step P σ (.record n (if rc = 0 then .ok else .fail) rc out)
        { σ with ended := σ.ended.erase n
                 done := σ.done ++ [(n, if rc = 0 then .ok else .fail)] }
  /-- a task that is up to date is skipped -/
  | skip {σ : Sched α} {n : α} (turn : σ.Turn P n) (sound : ¬ σ.Spoilt P n) (fresh : ¬ P.stale n) :
      Sched.Step P σ (.record n .skip 0 []) { σ with done := σ.done ++ [(n, .skip)] }
  /-- a task that requires a failed task is passed over -/
  | depf {σ : Sched α} {n : α} (turn : σ.Turn P n) (spoilt : σ.Spoilt P n) :
      Sched.Step P σ (.record n .depf 0 []) { σ with done := σ.done ++ [(n, .depf)] }

/-- The machine produces the actions `as` on its way from its first state to `σ`. -/
inductive Sched.Runs (P : Workload α) : List (Act α) → Sched α → Prop
  | init : Sched.Runs P [] Sched.init
  | snoc {as : List (Act α)} {σ τ : Sched α} {a : Act α} :
      Sched.Runs P as σ → Sched.Step P σ a τ → Sched.Runs P (as ++ [a]) τ

/-- What makes sense of a workload: what is required comes before, and a job produces one result. -/
structure Workload.OK (P : Workload α) : Prop where
  req : ∀ a b, P.requires a b → P.after a b
  det : ∀ n rc rc' out out', P.result n rc out → P.result n rc' out' → rc = rc' ∧ out = out'

end Joque
