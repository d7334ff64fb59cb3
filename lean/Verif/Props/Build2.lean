import Verif.Props.Build

/-!
# C62: failed tasks are tried again
-/

namespace Joque

/-- **C62_partial**.  The process of `n` kept a retcode file, its child ran to the end and did not
exit with 0.  Then in the next execution of the same dag, whatever the schedule, `n` and everything
invalidated by it is not skipped: unless a dependency fails, their jobs run.  (Full statement:
without the conditions on how the process failed; false, see `C62_counterexample`.) -/
theorem C62_partial (C C2 : Cfg) (hwf : C.dag.WF) (proc : Node → Process) (tf : TimeFmt)
    (clock : Nat → Int) (fs : Nat → FS) (ms ms2 : List Move) (hp : Plan C.dag proc)
    (W : BuildRun C.dag C.outcome proc (exec C ms).trace clock fs) (n : Node) (hn : n ∈ C.dag.nodes)
    {e : Nat} (he : (exec C ms).trace[e]? = some (.jobEnd n)) (os : POS) (before : FS)
    (hfs : ∀ q ∈ (proc n).writes, fs (e + 1) q = ((proc n).run os before).2 q) (f : Str)
    (hf : (proc n).retcodeFile = some f) (hc : os.Completed) (hrm : os.removeFails = none)
    (ht : ¬ os.Torn) (h0 : os.exit ≠ 0)
    (hdag : C2.dag = C.dag) (hask2 : AsksAt C2 proc tf (fs (exec C ms).trace.length))
    (r : RunRecord) (hr : r ∈ recsOf (exec C2 ms2).trace)
    (hrn : Relation.ReflTransGen (HasEdge C.dag .invalidatedBy) r.node n) :
    r.status ≠ .skip ∧ (r.status ≠ .depf → JobBegan (exec C2 ms2).trace r.node) := by
  have hwf2 : C2.dag.WF := hdag ▸ hwf
  have hel : e < (exec C ms).trace.length := (List.getElem?_eq_some_iff.1 he).1
  have hfw : f ∈ (proc n).writes := by simp [Process.writes, hf]
  have hstay : fs (exec C ms).trace.length f = ((proc n).run os before).2 f := by
    rw [← hfs f hfw]
    refine W.idle hwf hp hn hfw (by omega) (Nat.le_refl _) fun k hk _ hrun => hrun.2 ?_
    exact mem_take_of_getElem? he (by omega)
  have hinv := C36_failed_again tf os before (fs (exec C ms).trace.length) (proc n) f hf hc hrm ht h0
    hstay
  have hstale : Stale C2.dag C2.ask r.node := by
    refine ⟨n, by rw [hdag]; exact hrn,
      ((proc n).isInvalidated tf (fs (exec C ms).trace.length)).log, ?_⟩
    rw [hask2 n (by rw [hdag]; exact hn), ← hinv]
  constructor
  · intro hs
    have h6 := C06_status_meaning C2 hwf2 ms2 r hr
    rw [hs] at h6
    exact h6.2.2.2.1 hstale
  · intro hs
    exact (C08_executed_iff_stale C2 hwf2 ms2 r hr hs).2 hstale

/-- `a → b` by a command that writes `b` and then fails; no retcode file -/
def Ex.badProc : Process := { cmd := [], input := [['a']], output := [['b']], retcodeFile := none }

def Ex.badOS : POS := { canonOS Ex.badProc 3 with exit := 1 }

/-- **C62** is false without a retcode file: the command writes its output and fails; the task is
FAIL, but the next time it is considered up to date and skipped. -/
theorem C62_counterexample :
    (∃ r, (Ex.badProc.run Ex.badOS Ex.bfs0).1 = .ret r ∧ r.retcode = some 1) ∧
    (Ex.badProc.isInvalidated (fun _ => []) (Ex.badProc.run Ex.badOS Ex.bfs0).2).invalidated = false := by
  refine ⟨⟨_, rfl, by decide +kernel⟩, by decide +kernel⟩

/-- with a retcode file it is run again -/
example : let p := { Ex.badProc with retcodeFile := some ['r'] }
    Ex.badOS.Completed ∧ Ex.badOS.removeFails = none ∧ IsInt Ex.badOS.exit ∧ Ex.badOS.exit ≠ 0 ∧
    (p.isInvalidated (fun _ => []) (p.run Ex.badOS Ex.bfs0).2).invalidated = true :=
  ⟨⟨rfl, rfl, rfl⟩, rfl, by unfold IsInt; decide, by decide, by decide +kernel⟩

end Joque
