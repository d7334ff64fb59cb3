import Verif.Props.Build2
import Verif.Props.Crash
import Verif.Props.Exact

/-! # C62, exactly: which failures are forgotten -/

namespace Joque

/-- **C62**, exactly.  The process of `n` reported a failure (its child leaves the retcode file alone), the
files of `n` are there after the execution, and no other task makes `n` out of date.  Then the next
execution skips `n` if and only if the failure left no trace: there is no retcode file, or the child did
not run to its end and the retcode file told that all is well before, or the device was full when the
retcode file was written; and all outputs are newer than all inputs. -/
theorem C62_exact (C C2 : Cfg) (hwf : C.dag.WF) (proc : Node → Process) (tf : TimeFmt)
    (clock : Nat → Int) (fs : Nat → FS) (ms ms2 : List Move) (hp : Plan C.dag proc)
    (W : BuildRun C.dag C.outcome proc (exec C ms).trace clock fs) (n : Node) (hn : n ∈ C.dag.nodes)
    {e : Nat} (he : (exec C ms).trace[e]? = some (.jobEnd n)) (os : POS) (before : FS)
    (hfs : ∀ q ∈ (proc n).writes, fs (e + 1) q = ((proc n).run os before).2 q)
    (hq : ∀ f, (proc n).retcodeFile = some f → os.effect before f = before f)
    (hrm : os.removeFails = none) (res : RunResult)
    (hres : ((proc n).run os before).1 = .ret res) (h0 : res.retcode ≠ some 0)
    (hin : ∀ i ∈ (proc n).input, (fs (exec C ms).trace.length i).isSome)
    (hout : ∀ o ∈ (proc n).output, (fs (exec C ms).trace.length o).isSome)
    (hdag : C2.dag = C.dag) (hask2 : AsksAt C2 proc tf (fs (exec C ms).trace.length))
    (r : RunRecord) (hr : r ∈ recsOf (exec C2 ms2).trace) (hrn : r.node = n) (hst : r.status ≠ .depf)
    (honly : ∀ m, Relation.TransGen (HasEdge C.dag .invalidatedBy) n m → ¬ SelfStale C2.ask m) :
    r.status = .skip ↔
      ((proc n).retcodeFile = none ∨ ¬ os.Completed ∧ RetcodeOk before (proc n) ∨
        os.Completed ∧ os.Torn) ∧
      ∀ o ∈ (proc n).output, ∀ i ∈ (proc n).input, ∀ fo fi,
        fs (exec C ms).trace.length o = some fo → fs (exec C ms).trace.length i = some fi →
        fi.time < fo.time := by
  have hwf2 : C2.dag.WF := hdag ▸ hwf
  have hel : e < (exec C ms).trace.length := (List.getElem?_eq_some_iff.1 he).1
  have h6 := C06_status_meaning C2 hwf2 ms2 r hr
  have h8 := C08_executed_iff_stale C2 hwf2 ms2 r hr hst
  have hskip : r.status = .skip ↔ ((proc n).isInvalidated tf (fs (exec C ms).trace.length)).invalidated = false := by
    have hself : SelfStale C2.ask n ↔
        ((proc n).isInvalidated tf (fs (exec C ms).trace.length)).invalidated = true := by
      unfold SelfStale
      rw [hask2 n (by rw [hdag]; exact hn)]
      constructor
      · rintro ⟨log, h⟩
        rw [InvalOut.answer.inj h]
      · intro h
        exact ⟨_, by rw [← h]⟩
    constructor
    · intro hs
      rw [hs] at h6
      by_contra hc
      exact h6.2.2.2.1 ⟨n, by rw [hrn], hself.2 (by simpa using hc)⟩
    · intro hv
      have hnb : ¬ JobBegan (exec C2 ms2).trace r.node := by
        rw [h8]
        rintro ⟨m, hm, hs⟩
        rw [hrn, hdag] at hm
        rcases Relation.reflTransGen_iff_eq_or_transGen.1 hm with rfl | hm
        · rw [hself, hv] at hs; cases hs
        · exact honly m hm hs
      cases hs : r.status with
      | skip => rfl
      | depf => exact absurd hs hst
      | ok => rw [hs] at h6; exact absurd (ended_began hwf2 (List.prefix_refl _) h6.1) hnb
      | fail => rw [hs] at h6; exact absurd (ended_began hwf2 (List.prefix_refl _) h6.1) hnb
  rw [hskip]
  have hret : RetcodeOk (fs (exec C ms).trace.length) (proc n) ↔
      ((proc n).retcodeFile = none ∨ ¬ os.Completed ∧ RetcodeOk before (proc n) ∨
        os.Completed ∧ os.Torn) := by
    cases hf : (proc n).retcodeFile with
    | none => exact ⟨fun _ => .inl rfl, fun _ f h => by rw [hf] at h; cases h⟩
    | some f =>
      have hfw : f ∈ (proc n).writes := by simp [Process.writes, hf]
      have hstay : fs (exec C ms).trace.length f = ((proc n).run os before).2 f := by
        rw [← hfs f hfw]
        refine W.idle hwf hp hn hfw (by omega) (Nat.le_refl _) fun k hk _ hrun => hrun.2 ?_
        exact mem_take_of_getElem? he (by omega)
      have hx' := C56_exact os before (proc n) f hf (hq f hf) hrm res hres h0
      have hsame : RetcodeOk (fs (exec C ms).trace.length) (proc n) ↔
          RetcodeOk ((proc n).run os before).2 (proc n) := by
        unfold RetcodeOk
        constructor
        · intro h g hg
          rw [hf] at hg; cases hg
          rw [← hstay]; exact h f hf
        · intro h g hg
          rw [hf] at hg; cases hg
          rw [hstay]; exact h f hf
      rw [hsame, hx']
      simp
  by_cases hok : RetcodeOk (fs (exec C ms).trace.length) (proc n)
  · rw [← hret]
    have h34 := C34_stale tf _ (proc n) hok (hp.hasInput _ hn) (hp.hasOutput _ hn) hin hout
    rw [← Bool.not_eq_true, h34]
    constructor
    · intro h
      refine ⟨hok, fun o ho i hi fo fi h1 h2 => ?_⟩
      by_contra hc
      exact h ⟨o, ho, i, hi, fo, fi, h1, h2, by omega⟩
    · rintro ⟨-, h⟩ ⟨o, ho, i, hi, fo, fi, h1, h2, hle⟩
      have := h o ho i hi fo fi h1 h2
      omega
  · rw [inval_of_retcode tf hok]
    rw [hret] at hok
    exact ⟨fun h => (by cases h), fun h => absurd h.1 hok⟩

namespace Ex

/-- one task: a command that writes `b` and fails -/
def failCfg (fs : FS) : Cfg :=
  { dag := { nodes := [1], edges := [], name := fun _ => ['x'], task := fun n => n }
    resources := fun _ => []
    hasJob := fun _ => true
    ask := fun _ => .answer (badProc.isInvalidated (fun _ => []) fs)
    outcome := fun _ => (badProc.run badOS bfs0).1
    threadCount := 0 }

def failFirst : St := exec (failCfg bfs0) (List.replicate 11 .ctl)

def failFs : Nat → FS := canonFs (fun _ => badProc) bfs0 failFirst.trace

def failOS (i : Nat) : POS := { canonOS badProc i with exit := 1 }

theorem failWorld : BuildRun (failCfg bfs0).dag (failCfg bfs0).outcome (fun _ => badProc) failFirst.trace
    (fun i => i) failFs := by
  have hok : canonOk failFirst.trace = true := by decide +kernel
  have W := canon_world (g := (failCfg bfs0).dag) (proc := fun _ => badProc) (fs0 := bfs0)
    (tr := failFirst.trace) (outcome := fun _ => .ret { retcode := some 0, output := [], log := badProc.shown })
    (fun _ => rfl) (fun _ _ h => by cases h) bold0 (fun n _ q hq _ => by
      have : q = ['a'] := by simpa [badProc] using hq
      subst this; decide +kernel)
    (fun i n h => (canonOk_spec hok h).1) (fun i n h => (canonOk_spec hok h).2)
  refine { W with runs := fun i n hi => ⟨failOS i, failFs i, rfl, fun q hq => ?_, fun _ h => by cases h⟩ }
  have hqo : q ∈ badProc.output := by simpa [Process.writes, badProc] using hq
  show canonFs _ _ _ (i + 1) q = _
  rw [canonFs_end hi, if_pos hqo, prun_done _ _ _ ⟨rfl, rfl, rfl⟩]
  exact (if_pos hqo).symm

theorem failPlan : Plan (failCfg bfs0).dag (fun _ => badProc) := by
  refine ⟨?_, fun _ _ _ h => (by cases h), ?_, ?_, ?_⟩
  · show ∀ n ∈ [1], ∀ m ∈ [1], n ≠ m → ∀ q ∈ badProc.writes, q ∉ badProc.writes
    decide +kernel
  · intro n _ q hq
    left
    have : q = ['a'] := by simpa [badProc] using hq
    subst this
    show ∀ m ∈ [1], ['a'] ∉ badProc.writes
    decide +kernel
  · intro n _; decide
  · intro n _; decide

end Ex

/-- **C62** fails in an execution: the task is FAIL, and the next execution skips it.  All hypotheses of
`C62_exact` hold. -/
theorem C62_forgotten :
    let L := Ex.failFirst.trace.length
    let next := exec (Ex.failCfg (Ex.failFs L)) (List.replicate 11 .ctl)
    Plan (Ex.failCfg Ex.bfs0).dag (fun _ => Ex.badProc) ∧
    BuildRun (Ex.failCfg Ex.bfs0).dag (Ex.failCfg Ex.bfs0).outcome (fun _ => Ex.badProc)
      Ex.failFirst.trace (fun i => i) Ex.failFs ∧
    Ex.failFirst.trace[7]? = some (.jobEnd 1) ∧
    (∀ q ∈ Ex.badProc.writes, Ex.failFs 8 q = (Ex.badProc.run (Ex.failOS 7) Ex.bfs0).2 q) ∧
    (∃ res, (Ex.badProc.run (Ex.failOS 7) Ex.bfs0).1 = .ret res ∧ res.retcode = some 1) ∧
    (Ex.failFs L ['a']).isSome ∧ (Ex.failFs L ['b']).isSome ∧
    AsksAt (Ex.failCfg (Ex.failFs L)) (fun _ => Ex.badProc) (fun _ => []) (Ex.failFs L) ∧
    Ex.failFirst.phase = .finished ∧ (recsOf Ex.failFirst.trace).map (fun r => (r.node, r.status)) = [(1, .fail)] ∧
    next.phase = .finished ∧ (recsOf next.trace).map (fun r => (r.node, r.status)) = [(1, .skip)] := by
  refine ⟨Ex.failPlan, Ex.failWorld, by decide +kernel, by decide +kernel, ⟨_, rfl, by decide +kernel⟩,
    by decide +kernel, by decide +kernel, fun _ _ => rfl, by decide +kernel, by decide +kernel,
    by decide +kernel, by decide +kernel⟩

end Joque
