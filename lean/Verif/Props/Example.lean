import Verif.Model.Exec
import Verif.Spec.Graph

/-! Concrete executions used to show that the hypotheses of the property theorems are met. -/

namespace Joque.Ex

/-- 3 must run after 1 and 2 and requires 1; 2 is ordered after 4; 1 and 4 share resource 7;
1 fails with code 5; 5 is up to date and independent. -/
def dag : Dag :=
  { nodes := [5, 4, 3, 2, 1]
    edges := [⟨2, 4, .after⟩, ⟨3, 2, .after⟩, ⟨3, 1, .requires⟩, ⟨3, 1, .after⟩,
      ⟨3, 1, .invalidatedBy⟩]
    name := fun n => List.replicate n 'x'
    task := fun n => n }

def ret (rc : Int) (log : Str) : JobOut :=
  .ret { retcode := some rc, output := [⟨.standard, ['h']⟩], log := log }

def cfg (tc : Nat) : Cfg :=
  { dag := dag
    resources := fun n => if n = 1 ∨ n = 4 then [7] else []
    hasJob := fun _ => true
    ask := fun n => .answer { invalidated := n ≠ 5, log := [] }
    outcome := fun n => if n = 1 then ret 5 ['e'] else ret 0 []
    threadCount := tc }

theorem wf (tc : Nat) : (cfg tc).dag.WF := by
  constructor
  · show [5, 4, 3, 2, 1].Nodup; decide
  · show ∀ e ∈ dag.edges, e.src ∈ dag.nodes ∧ e.tgt ∈ dag.nodes; decide

/-- all workers that can make progress do so -/
def work : List Move := [1, 2, 3, 4, 5].map .begin ++ [4, 3, 2, 1, 5].map .finish

/-- `k` portions of the control thread, then the workers, repeated; `j` portions at the end -/
def moves (k m j : Nat) : List Move :=
  (List.replicate k (List.replicate m Move.ctl ++ work)).flatten ++ List.replicate j .ctl

/-- a complete run with two threads -/
def done2 : List Move := moves 5 8 5

/-- a complete run with one thread -/
def done1 : List Move := moves 7 8 3

/-- a complete run on the control thread -/
def done0 : List Move := moves 0 0 31

theorem fin2 : (exec (cfg 2) done2).phase = .finished := by decide +kernel

theorem fin1 : (exec (cfg 1) done1).phase = .finished := by decide +kernel

theorem fin0 : (exec (cfg 0) done0).phase = .finished := by decide +kernel

end Joque.Ex
