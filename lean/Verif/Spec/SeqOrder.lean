import Verif.Spec.Build
import Verif.Model.Exec

/-! # Vocabulary for the order in which a program without worker threads runs its tasks (C104) -/

namespace Joque

/-- The tasks of a selection in some order that a program which executes the selection with `thread_count`
0 may report them in: nodes may be placed anywhere in memory, maps may be iterated in any order. -/
def SeqOrder (st : Store) (ts : TaskSet) (filter : Str) (L : List TaskId) : Prop :=
  ∃ (E : BEnv) (univ visit : List TaskId) (order : List TaskId → List TaskId) (fuel : Nat) (s : BSt) (k : Nat),
    E.store = st ∧ BuildEnv E Dag.empty ts univ visit order ∧ univ.length < fuel ∧
    insertSet E fuel Dag.empty ts filter visit order = .ok s ∧
    (exec (execCfg st s.dag 0) (List.replicate k .ctl)).phase = .finished ∧
    L = (exec (execCfg st s.dag 0) (List.replicate k .ctl)).erec.runs.map RunRecord.t

/-- The tasks of a selection in some order in which a program that executes it with `tc` threads may get
their records: nodes may be placed anywhere, and threads may go on in any order. -/
def RecordOrder (st : Store) (ts : TaskSet) (filter : Str) (tc : Nat) (L : List TaskId) : Prop :=
  ∃ (E : BEnv) (univ visit : List TaskId) (order : List TaskId → List TaskId) (fuel : Nat) (s : BSt) (ms : List Move),
    E.store = st ∧ BuildEnv E Dag.empty ts univ visit order ∧ univ.length < fuel ∧
    insertSet E fuel Dag.empty ts filter visit order = .ok s ∧
    (exec (execCfg st s.dag tc) ms).phase = .finished ∧
    L = (exec (execCfg st s.dag tc) ms).erec.runs.map RunRecord.t

/-- both tasks are selected, and `t` is declared to come after `d` -/
def MustFollow (st : Store) (ts : TaskSet) (filter : Str) (t d : TaskId) : Prop :=
  Selected st ts filter t ∧ Selected st ts filter d ∧ (d ∈ (st t).dependsOn ∨ d ∈ (st t).runAfter)

end Joque
