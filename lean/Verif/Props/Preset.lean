import Verif.Proof.Preset3
import Verif.Props.Exec1

/-!
# C77: dags whose nodes carry marks

Statement: what an execution does is determined by the tasks and the edges of the dag; the marks
its nodes carry (public members, which the user may set) make no difference.

False for `started`, `done` and `failed`; true for `invalidated`.
-/

namespace Joque

/-- task 2 requires and comes after task 1 -/
def Ex.pre (tc : Nat) : Cfg :=
  { dag := { nodes := [2, 1], edges := [⟨2, 1, .requires⟩, ⟨2, 1, .after⟩]
             name := fun _ => [], task := fun n => n }
    resources := fun _ => []
    hasJob := fun _ => true
    ask := fun _ => .answer { invalidated := true, log := [] }
    outcome := fun _ => Ex.ret 0 []
    threadCount := tc }

theorem Ex.pre_wf (tc : Nat) : (Ex.pre tc).dag.WF := by
  constructor
  · show [2, 1].Nodup; decide
  · show ∀ e ∈ [(⟨2, 1, .requires⟩ : Edge), ⟨2, 1, .after⟩],
      e.src ∈ [2, 1] ∧ e.tgt ∈ [2, 1]
    decide

/-- all marks new but those of node 1 -/
def Ex.mark1 (st dn fl : Bool) : Flags :=
  { inval := fun _ => .unknown, started := fun n => st && n == 1, done := fun n => dn && n == 1
    failed := fun n => fl && n == 1 }

/-- **C77** is false.  Two healthy tasks, on the control thread: with new nodes both are OK; with
node 1 marked as `started` or as `done` (say, in order to leave it out) the program is aborted by the assertion of src/exec.cpp:332; with node 1 marked as `failed` the execution ends,
task 1 is OK and task 2, which requires it, is DEPF. -/
theorem C77_counterexample :
    (((exec (Ex.pre 0) (List.replicate 16 .ctl)).phase = .finished ∧
      (exec (Ex.pre 0) (List.replicate 16 .ctl)).erec.runs.map (fun r => (r.node, r.status)) =
        [(1, .ok), (2, .ok)])) ∧
    (execFrom (Ex.pre 0) (Ex.mark1 true false false) (List.replicate 16 .ctl)).phase = .abort ∧
    (execFrom (Ex.pre 0) (Ex.mark1 false true false) (List.replicate 16 .ctl)).phase = .abort ∧
    (execFrom (Ex.pre 0) (Ex.mark1 false false true) (List.replicate 16 .ctl)).phase = .finished ∧
    (execFrom (Ex.pre 0) (Ex.mark1 false false true)
      (List.replicate 16 .ctl)).erec.runs.map (fun r => (r.node, r.status)) =
        [(1, .ok), (2, .depf)] := by
  decide +kernel

/-- **C77**, the marks `started` and `done`.  If one node carries one of them, the execution
never reaches its end (src/exec.cpp:340-342), whatever the schedule, the
number of threads and the other marks: there is no result. -/
theorem C77_stuck (C : Cfg) (hwf : C.dag.WF) (f : Flags) (n : Node) (hn : n ∈ C.dag.nodes)
    (hf : f.started n = true ∨ f.done n = true) (ms : List Move) :
    (execFrom C f ms).phase ≠ .finished := by
  have h : Waits C.dag n (execFrom C f ms) :=
    foldl_inv (P := Waits C.dag n) (fun _ m hs => waits_step hwf hn hs m) ms _
      ⟨hf, (by intro x hx; cases hx), fun hc => (by cases hc), rfl⟩
  intro hc
  have := h.phase
  rw [hc] at this
  cases this

/-- **C77**, the mark `failed`.  If a node carries it, no job of a task requiring that node is ever
started and the only result such a task can have is DEPF, whatever becomes of the task of the node
itself. -/
theorem C77_failed (C : Cfg) (f : Flags) (n : Node) (hf : f.failed n = true) (ms : List Move)
    (x : Node) (hx : HasEdge C.dag .requires x n) :
    (∀ b, .jobBegin x b ∉ (execFrom C f ms).trace) ∧
    ∀ r ∈ (execFrom C f ms).erec.runs, r.node = x → r.status = .depf := by
  have h : Doomed C.dag n (execFrom C f ms) :=
    foldl_inv (P := Doomed C.dag n) (fun _ m hs => hs.step m) ms _
      ⟨hf, (by intro y hy; cases hy), (by intro y hy; cases hy), fun _ _ => rfl,
        (by intro y hy; cases hy), (by intro y b _ hy; cases hy)⟩
  exact ⟨fun b => h.noBegin x b hx, fun r hr he => h.recs r hr (he ▸ hx)⟩

/-- **C77**, what holds: the marks `invalidated` make no difference.  With all other marks new, the
events, the results, the phase and the workers are those of an execution with new nodes. -/
theorem C77_partial (C : Cfg) (hwf : C.dag.WF) (i : Node → Inval) (ms : List Move) :
    (execFrom C { Flags.fresh with inval := i } ms).phase = (exec C ms).phase ∧
    (execFrom C { Flags.fresh with inval := i } ms).erec = (exec C ms).erec ∧
    (execFrom C { Flags.fresh with inval := i } ms).trace = (exec C ms).trace ∧
    (execFrom C { Flags.fresh with inval := i } ms).worker = (exec C ms).worker := by
  obtain ⟨⟨j, hj⟩, _⟩ := same_exec hwf i ms
  rw [hj]
  exact ⟨rfl, rfl, rfl, rfl⟩

/-- a node marked as up to date is asked again and run -/
example : (execFrom (Ex.pre 0) { Flags.fresh with inval := fun _ => .valid }
      (List.replicate 16 .ctl)).erec.runs.map (fun r => (r.node, r.status)) =
        [(1, .ok), (2, .ok)] := by
  decide +kernel

/-- the schedule of the other tasks goes on as long as it can: with two threads, node 2 unmarked
and independent of node 1, task 2 is run before the abort -/
example : .jobEnd 2 ∈ (execFrom (Ex.par 0) (Ex.mark1 true false false)
      (List.replicate 30 .ctl)).trace ∧
    (execFrom (Ex.par 0) (Ex.mark1 true false false) (List.replicate 30 .ctl)).phase = .abort := by
  decide +kernel

end Joque
