import Verif.Props.Exec1
import Verif.Props.Exec2
import Verif.Props.Exec3
import Verif.Props.Exec4
import Verif.Props.Exec5
import Verif.Props.Exec6
import Verif.Props.Sync
import Verif.Props.Sync2
import Verif.Props.Example
import Verif.Props.Scheduler
import Verif.Props.Deliver
import Verif.Props.Reports
import Verif.Props.Process

/-! The engine theorems applied to the running example `Ex.cfg`: 3 must run after 1 and 2 and
requires 1, 2 is ordered after 4, 1 and 4 share a resource, 1 fails, 5 is up to date.  Every
hypothesis is discharged, so none of the theorems holds vacuously. -/

namespace Joque

-- C02: job 4 starts once
example : ∃ pre post, (exec (Ex.cfg 2) Ex.done2).trace = pre ++ .jobBegin 4 false :: post ∧
    ¬ JobBegan pre 4 ∧ ¬ JobBegan post 4 := by
  obtain ⟨pre, post, h⟩ := List.append_of_mem
    (show Event.jobBegin 4 false ∈ (exec (Ex.cfg 2) Ex.done2).trace by decide +kernel)
  exact ⟨pre, post, h, (C02_at_most_once _ (Ex.wf 2) _ pre post 4 false h).2⟩

example : ((exec (Ex.cfg 2) Ex.done2).erec.runs.map RunRecord.node).Perm [5, 4, 3, 2, 1] :=
  (C02_one_record (Ex.cfg 2) (Ex.wf 2) Ex.done2 Ex.fin2).1

-- C04: with two threads no three jobs run at any moment
example (pre post : List Event) (h : (exec (Ex.cfg 2) Ex.done2).trace = pre ++ post)
    (l : List Node) (hl : l.Nodup) (hr : ∀ n ∈ l, Running pre n) : l.length ≤ 2 :=
  (C04_thread_limit (Ex.cfg 2) (Ex.wf 2) Ex.done2 pre post h).1 l hl hr

-- C05: task 1 fails, so 3 is not run
example : ¬ JobBegan (exec (Ex.cfg 2) Ex.done2).trace 3 := by
  obtain ⟨r, hr, hn, hb⟩ : ∃ r ∈ recsOf (exec (Ex.cfg 2) Ex.done2).trace, r.node = 1 ∧ Bad r := by
    unfold Bad; decide +kernel
  exact (C05_failed_dependency (Ex.cfg 2) (Ex.wf 2) Ex.done2 3 1 (by unfold HasEdge; decide +kernel)
    (by unfold AfterEdge HasEdge; decide +kernel) r hr hn hb).1

example : ∃ r ∈ (exec (Ex.cfg 2) Ex.done2).erec.runs, r.node = 3 ∧ r.status = .depf := by
  obtain ⟨r, hr, hn, hb⟩ : ∃ r ∈ (exec (Ex.cfg 2) Ex.done2).erec.runs, r.node = 1 ∧ Bad r := by
    unfold Bad; decide +kernel
  exact (C05_transitive (Ex.cfg 2) (Ex.wf 2) (Ex.hra 2) Ex.done2 Ex.fin2 3 1
    (.single (by unfold HasEdge; decide +kernel)) r hr hn hb).1

-- C07: one thread and two threads give task 1 the same record, up to time
example (r1 r2 : RunRecord) (h1 : r1 ∈ recsOf (exec (Ex.cfg 1) Ex.done1).trace)
    (h2 : r2 ∈ recsOf (exec (Ex.cfg 2) Ex.done2).trace) (hn : r2.node = r1.node) :
    r1.status = r2.status ∧ r1.retcode = r2.retcode ∧ r1.output = r2.output :=
  C07_schedule_independence (Ex.cfg 1) (Ex.cfg 2) id (Ex.wf 1) (Ex.wf 2) (by constructor <;> simp [Ex.cfg])
    (Ex.hra 1) (Ex.hra 2) Ex.done1 Ex.done2 r1 r2 h1 h2 hn

-- C08: 4 runs because it says so itself; 5 is skipped
example : ∃ r ∈ recsOf (exec (Ex.cfg 2) Ex.done2).trace, r.node = 4 ∧
    ∃ m, Relation.ReflTransGen (HasEdge (Ex.cfg 2).dag .invalidatedBy) 4 m ∧ SelfStale (Ex.cfg 2).ask m := by
  obtain ⟨r, hr, hn, hs, hb⟩ : ∃ r ∈ recsOf (exec (Ex.cfg 2) Ex.done2).trace, r.node = 4 ∧ r.status ≠ .depf ∧
      Event.jobBegin 4 false ∈ (exec (Ex.cfg 2) Ex.done2).trace := by decide +kernel
  have := (C08_executed_iff_stale (Ex.cfg 2) (Ex.wf 2) Ex.done2 r hr hs).1 (hn ▸ ⟨false, hb⟩)
  exact ⟨r, hr, hn, hn ▸ this⟩

-- C11: from the middle of the run the end can be reached
example : ∃ ms', (exec (Ex.cfg 2) (List.replicate 13 .ctl ++ ms')).phase = .finished :=
  C11_no_deadlock (Ex.cfg 2) (Ex.healthy 2) _ (.inl (by decide +kernel))

-- C13: the final statistics count the records
example : (exec (Ex.cfg 2) Ex.done2).erec.stats.fail =
    (exec (Ex.cfg 2) Ex.done2).erec.runs.countP (fun r => r.status = .fail) :=
  (C13_stats (Ex.cfg 2) (Ex.wf 2) Ex.done2 _ (.inl rfl)).1 .fail

-- C15: the failing task went through all stations, the skipped one through two
example : ∃ r ∈ (exec (Ex.cfg 2) Ex.done2).erec.runs, r.node = 1 ∧ life 1 (exec (Ex.cfg 2) Ex.done2).trace =
    if r.status = .skip ∨ r.status = .depf then [.before, .after]
    else [.before, .launch, .begin false, .end, .log, .after] :=
  C15_complete (Ex.cfg 2) (Ex.wf 2) Ex.done2 Ex.fin2 1 (by decide)

-- C18: a thread could not be created while job 1 executes; only it goes on, and the exception waits for it
example (ms' : List Move) :
    let ms := List.replicate 10 Move.ctl ++ [.begin 1] ++ List.replicate 3 .ctl ++ [.ctlFail]
    ∃ post, (exec (Ex.par 3) (ms ++ ms')).trace = (exec (Ex.par 3) ms).trace ++ post ∧
      ∀ e ∈ post, ∃ n, .launch n ∈ (exec (Ex.par 3) ms).trace ∧ (e = .jobBegin n false ∨ e = .jobEnd n) :=
  C18_nothing_new (Ex.par 3) (Ex.par_wf 3) _ ms' (.inl ⟨.asyncFailed, by decide +kernel⟩)

example : let ms := List.replicate 10 Move.ctl ++ [.begin 1] ++ List.replicate 3 .ctl ++ [.ctlFail]
    exec (Ex.par 3) (ms ++ [.ctl]) = exec (Ex.par 3) ms ∧
    (exec (Ex.par 3) (ms ++ [.finish 1] ++ [.ctl])).phase = .threw .asyncFailed := by
  refine ⟨(C18_delivery_exact (Ex.par 3) (Ex.par_wf 3) _ .asyncFailed (by decide +kernel)).2 ?_,
    by decide +kernel⟩
  intro h
  have := h 1 (by decide +kernel)
  revert this
  unfold JobEnded
  decide +kernel

example (ms' : List Move) :
    let ms := List.replicate 10 Move.ctl ++ [.begin 1] ++ List.replicate 3 .ctl ++ [.ctlFail, .finish 1, .ctl]
    (∀ n, ¬ Running (exec (Ex.par 3) ms).trace n) ∧
      (exec (Ex.par 3) (ms ++ ms')).trace = (exec (Ex.par 3) ms).trace :=
  C18_joined (Ex.par 3) (Ex.par_wf 3) _ (.inl ⟨.asyncFailed, by decide +kernel⟩) ms'

-- C18: `is_invalidated` of 4 throws
example (ms : List Move) (m : Node) :
    ¬ JobBegan (exec { Ex.cfg 2 with ask := fun n => if n = 4 then .throws ['x'] else (Ex.cfg 2).ask n } ms).trace m := by
  obtain ⟨_, _, _, _, _, _, h⟩ := C18_inval_throws
    { Ex.cfg 2 with ask := fun n => if n = 4 then .throws ['x'] else (Ex.cfg 2).ask n } (Ex.wf 2)
    (Ex.healthy 2).acyclic (fun _ _ => rfl) ⟨4, by decide, ['x'], rfl⟩
  exact h ms m

-- C51: no job for 4
example : (exec { Ex.cfg 2 with hasJob := fun n => n ≠ 4 } [.ctl]).phase = .ub :=
  C51_always_ub { Ex.cfg 2 with hasJob := fun n => n ≠ 4 } (Ex.wf 2) (Ex.healthy 2).acyclic
    (fun n _ => ⟨_, rfl⟩) ⟨4, by decide, rfl⟩

-- C63: the end of job 4 happens before the begin of job 2
example : ∃ i k j : Nat, (exec (Ex.cfg 2) Ex.done2).trace[i]? = some (.jobBegin 4 false) ∧
    (exec (Ex.cfg 2) Ex.done2).trace[k]? = some (.jobEnd 4) ∧
    (exec (Ex.cfg 2) Ex.done2).trace[j]? = some (.jobBegin 2 false) ∧
    HappensBefore (exec (Ex.cfg 2) Ex.done2).trace k j := by
  obtain ⟨i, hi⟩ : ∃ i : Nat, (exec (Ex.cfg 2) Ex.done2).trace[i]? = some (.jobBegin 4 false) :=
    List.getElem?_of_mem (by decide +kernel)
  obtain ⟨j, hj⟩ : ∃ j : Nat, (exec (Ex.cfg 2) Ex.done2).trace[j]? = some (.jobBegin 2 false) :=
    List.getElem?_of_mem (by decide +kernel)
  obtain ⟨k, hk, _, h⟩ := C63_ordered (Ex.cfg 2) (Ex.wf 2) Ex.done2 2 4 false false i j
    (by unfold AfterEdge HasEdge; decide +kernel) hi hj
  exact ⟨i, k, j, hi, hk, hj, h⟩

-- C01: 2 begins after 4 is recorded
example : ∃ pre post, (exec (Ex.cfg 2) Ex.done2).trace = pre ++ .jobBegin 2 false :: post ∧ Recorded pre 4 := by
  obtain ⟨pre, post, h⟩ := List.append_of_mem
    (show Event.jobBegin 2 false ∈ (exec (Ex.cfg 2) Ex.done2).trace by decide +kernel)
  exact ⟨pre, post, h, (C01_transitive (Ex.cfg 2) (Ex.wf 2) Ex.done2 pre post 2 4 false h
    (.single (by unfold AfterEdge HasEdge; decide +kernel))).1⟩

/-! ### processes: `cp a b` -/

/-- only `a` is there -/
def Ex.fsOnlyA (ta : Int) : FS := fun q => if q = ['a'] then some ⟨ta, []⟩ else none

/-- only `b` is there -/
def Ex.fsOnlyB (tb : Int) : FS := fun q => if q = ['b'] then some ⟨tb, []⟩ else none

theorem Ex.onlyA_epoch (ta : Int) (q : Str) (f : PFile) (h : Ex.fsOnlyA ta q = some f) : f.time = ta := by
  unfold Ex.fsOnlyA at h
  split at h
  · cases h; rfl
  · cases h

theorem Ex.onlyB_epoch (tb : Int) (q : Str) (f : PFile) (h : Ex.fsOnlyB tb q = some f) : f.time = tb := by
  unfold Ex.fsOnlyB at h
  split at h
  · cases h; rfl
  · cases h

theorem Ex.proc_retcode (fs : FS) : RetcodeOk fs Ex.proc := by intro f h; cases h

-- C34: the input is missing; noticed or not, depending on the epoch
example : (Ex.proc.isInvalidated (fun _ => []) (Ex.fsOnlyB (-5))).invalidated = true :=
  C34_missing_input _ _ _ (Ex.proc_retcode _)
    (fun q f h => by rw [Ex.onlyB_epoch _ q f h]; decide) (by decide) ['a'] (by decide) (by decide)

example : ¬ (Ex.proc.isInvalidated (fun _ => []) (Ex.fsOnlyB 5)).invalidated = true := by
  rw [C34_missing_input_ignored _ _ _ (Ex.proc_retcode _)
    (fun q f h => by rw [Ex.onlyB_epoch _ q f h]; decide) (by decide) (by decide) (by decide)]
  rintro ⟨o, _, i, hi, _, fb, _, hb, _⟩
  obtain rfl : i = ['a'] := List.mem_singleton.1 (show i ∈ [['a']] from hi)
  simp [Ex.fsOnlyB] at hb

-- C35: the output is missing
example : (Ex.proc.isInvalidated (fun _ => []) (Ex.fsOnlyA (-5))).invalidated = true :=
  C35_partial _ _ _ (Ex.proc_retcode _) (by decide) ['b'] (by decide) (by decide) (.inl (by decide))

-- C35: one of two outputs is missing, and nobody notices
example : ¬ ((Process.derive [.path ['a'], .out ['b'], .out ['c']]).isInvalidated (fun _ => [])
    (Ex.fsAt (-5))).invalidated = true := by
  rw [C35_unnoticed _ _ _ (by intro f h; cases h) ?_ (by decide) (by decide) ['b'] (by decide) (by decide)]
  · rintro ⟨o, ho, i, hi, fa, fb, ha, hb, hle⟩
    obtain rfl : i = ['a'] := List.mem_singleton.1 (show i ∈ [['a']] from hi)
    obtain rfl | rfl : o = ['b'] ∨ o = ['c'] := by
      have : o ∈ [['b'], ['c']] := ho
      simpa using this
    · simp only [Ex.fsAt] at ha hb
      cases ha; cases hb
      exact absurd hle (by decide)
    · simp [Ex.fsAt] at ha
  · intro q f h
    unfold Ex.fsAt at h
    split at h
    · cases h; decide
    · split at h
      · cases h; decide
      · cases h

-- C35: no inputs; up to date only as long as the output is missing
example : ((Process.derive [.out ['b']]).isInvalidated (fun _ => []) (Ex.fsOnlyB (-5))).invalidated = true ∧
    ¬ ((Process.derive [.out ['b']]).isInvalidated (fun _ => []) (Ex.fsOnlyA (-5))).invalidated = true := by
  constructor
  · rw [C35_inverted _ _ _ (by intro f h; cases h) rfl (by decide)]
    decide
  · rw [C35_inverted _ _ _ (by intro f h; cases h) rfl (by decide)]
    decide

end Joque
