import Verif.Props.Format2
import Verif.Props.Task
import Verif.Model.InsertSet

/-!
# Durations and changes of the system clock (C99)

`run_record::start` and `end` are readings of `std::chrono::system_clock` (include/joque/records.hpp:28,
47,50, src/exec.cpp:172), which people and time servers set; a reading is the time that has really
passed plus an offset that may change at any moment.
-/

namespace Joque

/-- what the system clock shows at each moment -/
def shown (real off : Nat → Int) : Nat → Int := fun i => real i + off i

/-- **C99**, exactly, for one record: the duration is what really passed iff the offset is the same at
its two readings; it is wrong by the difference otherwise. -/
theorem C99_exact (real off : Nat → Int) (r : RunRecord) :
    (shown real off r.end - shown real off r.start = real r.end - real r.start ↔
      off r.start = off r.end) ∧
    shown real off r.end - shown real off r.start - (real r.end - real r.start) =
      off r.end - off r.start := by
  simp only [shown]; omega

/-- **C99**, the total: if all offsets during the execution are within a range of `d` whole seconds, the
total run time is wrong by at most `d` seconds. -/
theorem C99_total (real off : Nat → Int) (er : ExecRecord) (lo : Int) (d : Nat)
    (hoff : ∀ r ∈ er.runs, (lo ≤ off r.start ∧ off r.start ≤ lo + d * 1000000000) ∧
      lo ≤ off r.end ∧ off r.end ≤ lo + d * 1000000000) (n m : Int)
    (hn : runtimeSum real er = some n) (hm : runtimeSum (shown real off) er = some m) :
    n - d ≤ m ∧ m ≤ n + d := by
  have hne : er.runs ≠ [] := by
    intro h
    simp [runtimeSum, h] at hn
  obtain ⟨n', h1, h2, h3⟩ := C41_least real er hne
  obtain ⟨m', k1, k2, k3⟩ := C41_least (shown real off) er hne
  rw [hn] at h1; cases h1
  rw [hm] at k1; cases k1
  constructor
  · have := h3 (m + d) (fun r hr r' hr' => ?_)
    · omega
    · have a := k2 r hr r' hr'
      have b := (hoff r hr).2
      have c := (hoff r' hr').1
      simp only [shown] at a
      omega
  · refine k3 (n + d) (fun r hr r' hr' => ?_)
    have a := h2 r hr r' hr'
    have b := (hoff r hr).2
    have c := (hoff r' hr').1
    simp only [shown]
    omega

/-- **C99**, where it holds: a clock that is wrong, but not adjusted during the execution, gives the
right durations and the right total. -/
theorem C99_partial (real off : Nat → Int) (er : ExecRecord) (c : Int)
    (hoff : ∀ r ∈ er.runs, off r.start = c ∧ off r.end = c) :
    runtimeSum (shown real off) er = runtimeSum real er ∧
    ∀ r ∈ er.runs, shown real off r.end - shown real off r.start = real r.end - real r.start := by
  refine ⟨?_, fun r hr => ?_⟩
  · cases hn : runtimeSum real er with
    | none =>
      cases hr : er.runs with
      | nil => simp [runtimeSum, hr]
      | cons r rs => simp [runtimeSum, hr] at hn
    | some n =>
      have hne : er.runs ≠ [] := by
        intro h
        simp [runtimeSum, h] at hn
      obtain ⟨m, hm, _⟩ := C41_least (shown real off) er hne
      have := C99_total real off er c 0 (fun r hr => by
        obtain ⟨h1, h2⟩ := hoff r hr
        omega) n m hn hm
      rw [hm]
      congr 1
      simp at this
      omega
  · obtain ⟨h1, h2⟩ := hoff r hr
    exact (C99_exact real off r).1.2 (h1.trans h2.symm)

/-- one task, in the thread of the caller -/
def Ex.clockCfg : Cfg :=
  execCfg Ex.store { nodes := [0], edges := [], name := fun _ => "x".toList, task := id } 0

/-- half a second from event to event -/
def Ex.halfSec (i : Nat) : Int := i * 500000000

/-- an hour back after the seventh event -/
def Ex.putBack (i : Nat) : Int := if i < 7 then 0 else -3600 * 1000000000

/-- **C99** is false: while the only task of an execution runs for two seconds, the clock is put back by an
hour.  The task has a negative duration, and so has the execution. -/
theorem C99_counterexample : ∃ (C : Cfg) (ms : List Move) (real off : Nat → Int),
    C.dag.WF ∧ (exec C ms).phase = .finished ∧ (∀ i j, i ≤ j → real i ≤ real j) ∧
    (∃ k, ∀ i, off i = if i < k then 0 else -3600 * 1000000000) ∧
    runtimeSum real (exec C ms).erec = some 2 ∧
    runtimeSum (shown real off) (exec C ms).erec = some (-3598) ∧
    ∀ r ∈ (exec C ms).erec.runs, shown real off r.end < shown real off r.start := by
  refine ⟨Ex.clockCfg, List.replicate 11 .ctl, Ex.halfSec, Ex.putBack,
    ⟨by simp [Ex.clockCfg, execCfg, Cfg.ofJobs], by simp [Ex.clockCfg, execCfg, Cfg.ofJobs]⟩,
    by decide +kernel, fun i j h => by simp only [Ex.halfSec]; omega, ⟨7, fun i => rfl⟩,
    by decide +kernel, by decide +kernel, by decide +kernel⟩

/-- hypotheses of `C99_total` (with `d` an hour) and `C99_partial` (an hour behind all the time) -/
example : (∀ r ∈ (exec Ex.clockCfg (List.replicate 11 .ctl)).erec.runs,
      ((-3600 * 1000000000 ≤ Ex.putBack r.start ∧
        Ex.putBack r.start ≤ -3600 * 1000000000 + (3600 : Nat) * 1000000000) ∧
      -3600 * 1000000000 ≤ Ex.putBack r.end ∧
        Ex.putBack r.end ≤ -3600 * 1000000000 + (3600 : Nat) * 1000000000)) ∧
    (exec Ex.clockCfg (List.replicate 11 .ctl)).erec.runs.length = 1 ∧
    runtimeSum (shown Ex.halfSec fun _ => -3600 * 1000000000)
      (exec Ex.clockCfg (List.replicate 11 .ctl)).erec = some 2 :=
  ⟨by decide +kernel, by decide +kernel, by decide +kernel⟩

end Joque
