import Verif.Spec.Trace
import Verif.Model.Exec
import Verif.Spec.Verdict
import Verif.Spec.Build

/-! # Vocabulary for the interleavings of jobs (C119) -/

namespace Joque

/-- a job is entered or left -/
inductive JobEv where
  | begins (n : Node)
  | ends (n : Node)
  deriving DecidableEq, Repr

/-- what a history says about jobs that are entered and left, in order -/
def jobWord (tr : List Event) : List JobEv :=
  tr.filterMap fun e => match e with
    | .jobBegin n _ => some (.begins n)
    | .jobEnd n => some (.ends n)
    | _ => none

/-- Jobs of tasks with `runs` are entered and left one after the other such that `must n m` (`n` must come
after `m`) is respected; not all need to have been entered, or left. -/
structure Interleaving (runs : Node → Prop) (must : Node → Node → Prop) (w : List JobEv) : Prop where
  once : w.Nodup
  which : ∀ n, .begins n ∈ w → runs n
  order : ∀ p n q, w = p ++ .begins n :: q → ∀ m, runs m → must n m → .ends m ∈ p
  ends : ∀ p n q, w = p ++ .ends n :: q → .begins n ∈ p

/-- all these jobs have been left -/
def AllLeft (runs : Node → Prop) (w : List JobEv) : Prop := ∀ n, runs n → .ends n ∈ w

/-- Neither the number of threads nor a resource ever makes a task wait: tasks none of which must come after
another one are not more than there are threads, and have no resource in common. -/
structure Unhindered (C : Cfg) : Prop where
  some : 1 ≤ C.threadCount
  threads : ∀ l : List Node, l.Nodup → (∀ a ∈ l, a ∈ C.dag.nodes) →
    (∀ a ∈ l, ∀ b ∈ l, ¬ Relation.TransGen (AfterEdge C.dag) a b) → l.length ≤ C.threadCount
  resources : ∀ a ∈ C.dag.nodes, ∀ b ∈ C.dag.nodes, a ≠ b → ¬ Relation.TransGen (AfterEdge C.dag) a b →
    ¬ Relation.TransGen (AfterEdge C.dag) b a → ∀ r ∈ C.resources a, r ∉ C.resources b

/-- The tasks have nothing to do with each other: none is ordered after or requires another one, and no two
have a resource in common. -/
structure Apart (C : Cfg) : Prop where
  order : ∀ a b, ¬ AfterEdge C.dag a b
  requires : ∀ a b, ¬ HasEdge C.dag .requires a b
  resources : ∀ a ∈ C.dag.nodes, ∀ b ∈ C.dag.nodes, a ≠ b → ∀ r ∈ C.resources a, r ∉ C.resources b

/-- Jobs of tasks with `runs` are entered and left by `k` threads that take the tasks in the order of their
addresses: every job is entered at most once and left after that, and when it is entered fewer than `k` of
the jobs at lower addresses have not been left. -/
structure Queued (runs : Node → Prop) (k : Nat) (w : List JobEv) : Prop where
  once : w.Nodup
  which : ∀ n, .begins n ∈ w → runs n
  ends : ∀ p n q, w = p ++ .ends n :: q → .begins n ∈ p
  turn : ∀ p n q, w = p ++ .begins n :: q → ∀ l : List Node, l.Nodup →
    (∀ m ∈ l, runs m ∧ m < n ∧ .ends m ∉ p) → l.length < k

/-- the same said of tasks: no selected task ever has to wait for a thread or a resource -/
structure UnhinderedTasks (st : Store) (sel : TaskId → Prop) (tc : Nat) : Prop where
  some : 1 ≤ tc
  threads : ∀ l : List TaskId, l.Nodup → (∀ a ∈ l, sel a) →
    (∀ a ∈ l, ∀ b ∈ l, ¬ Relation.TransGen (OrderedAfter st sel) a b) → l.length ≤ tc
  resources : ∀ a b, sel a → sel b → a ≠ b → ¬ Relation.TransGen (OrderedAfter st sel) a b →
    ¬ Relation.TransGen (OrderedAfter st sel) b a → ∀ r ∈ (st a).resources, r ∉ (st b).resources

/-- the event of a node as an event of its task -/
def JobEv.map (f : Node → TaskId) : JobEv → JobEv
  | .begins n => .begins (f n)
  | .ends n => .ends (f n)

/-- Jobs of tasks with `runs` are entered and left, each at most once and left after it was entered, and at no
moment have more than `k` been entered and not left. -/
structure AtMost (runs : TaskId → Prop) (k : Nat) (w : List JobEv) : Prop where
  once : w.Nodup
  which : ∀ t, .begins t ∈ w → runs t
  ends : ∀ p t q, w = p ++ .ends t :: q → .begins t ∈ p
  few : ∀ p q, w = p ++ q → ∀ l : List TaskId, l.Nodup → (∀ t ∈ l, .begins t ∈ p ∧ .ends t ∉ p) → l.length ≤ k

/-- The selected tasks have nothing to do with each other: none depends on or runs after another selected one,
and no two have a resource in common. -/
structure ApartTasks (st : Store) (sel : TaskId → Prop) : Prop where
  order : ∀ a b, ¬ OrderedAfter st sel a b
  resources : ∀ a b, sel a → sel b → a ≠ b → ∀ r ∈ (st a).resources, r ∉ (st b).resources

/-- The jobs of a selection may be entered and left like this by a program that executes it with `tc` threads
to its end: nodes may be placed anywhere, and threads may go on in any order. -/
def TaskWord (st : Store) (ts : TaskSet) (filter : Str) (tc : Nat) (w : List JobEv) : Prop :=
  ∃ (E : BEnv) (univ visit : List TaskId) (order : List TaskId → List TaskId) (fuel : Nat) (s : BSt) (ms : List Move),
    E.store = st ∧ BuildEnv E Dag.empty ts univ visit order ∧ univ.length < fuel ∧
    insertSet E fuel Dag.empty ts filter visit order = .ok s ∧
    (exec (execCfg st s.dag tc) ms).phase = .finished ∧
    (jobWord (exec (execCfg st s.dag tc) ms).trace).map (JobEv.map s.dag.task) = w

end Joque
