import Verif.Proof.OneWorker
import Verif.Props.Exec1

/-! # C78: one worker thread does the same as none -/

namespace Joque

theorem sim_phase {C : Cfg} {s0 s1 : St} (h : Sim C s0 s1) (hp : s1.phase = .finished ∨ ∃ e, s1.phase = .threw e) :
    Twin s0 s1 := by
  cases h with
  | twin h => exact h
  | flight r n d h hf =>
    exfalso
    rcases hf.pos with ⟨h1, _⟩ | ⟨h1, _⟩ | ⟨⟨h1, _⟩ | h1 | ⟨h1, _⟩ | ⟨h1, _⟩, _⟩ <;>
      (rw [h1] at hp; rcases hp with hp | ⟨e, hp⟩ <;> cases hp)
  | ub h =>
    exfalso
    rw [h.p1] at hp
    rcases hp with hp | ⟨e, hp⟩ <;> cases hp

/-- The control thread alone: once the execution is over, every further resumption is undefined. -/
theorem seq_over {C : Cfg} {k : Nat}
    (hp : (exec C (List.replicate k .ctl)).phase = .finished ∨
      ∃ e, (exec C (List.replicate k .ctl)).phase = .threw e) (j : Nat) :
    (exec C (List.replicate (k + j + 1) .ctl)).phase = .ub := by
  induction j with
  | zero =>
    have e0 : exec C (List.replicate (k + 0 + 1) .ctl) = step C (exec C (List.replicate k .ctl)) .ctl := by
      unfold exec; rw [Nat.add_zero, List.replicate_succ', List.foldl_append]; rfl
    rw [e0]
    show (ctlStep C _ true).phase = _
    unfold ctlStep
    rcases hp with hp | ⟨e, hp⟩ <;> rw [hp]
  | succ j ih =>
    have e0 : exec C (List.replicate (k + (j + 1) + 1) .ctl) =
        step C (exec C (List.replicate (k + j + 1) .ctl)) .ctl := by
      unfold exec; rw [List.replicate_succ', List.foldl_append]; rfl
    rw [e0]
    show (ctlStep C _ true).phase = _
    unfold ctlStep
    rw [ih]
    exact ih

/-- two sequential executions that are over made the same number of portions -/
theorem seq_over_unique {C : Cfg} {k l : Nat}
    (hk : (exec C (List.replicate k .ctl)).phase = .finished ∨
      ∃ e, (exec C (List.replicate k .ctl)).phase = .threw e)
    (hl : (exec C (List.replicate l .ctl)).phase = .finished ∨
      ∃ e, (exec C (List.replicate l .ctl)).phase = .threw e) : k = l := by
  rcases Nat.lt_trichotomy k l with h | h | h
  · exfalso
    obtain ⟨j, rfl⟩ := Nat.exists_eq_add_of_lt h
    rw [seq_over hk j] at hl
    rcases hl with hl | ⟨e, hl⟩ <;> cases hl
  · exact h
  · exfalso
    obtain ⟨j, rfl⟩ := Nat.exists_eq_add_of_lt h
    rw [seq_over hl j] at hk
    rcases hk with hk | ⟨e, hk⟩ <;> cases hk

/-- An execution with one worker thread that is over (whatever the schedule of control thread and
worker) made the same calls in the same order, ran the same jobs between the same calls and returned
the same records as the execution with `thread_count = 0`, apart from times, from the `on_tick` calls
and from the thread a job runs on. -/
theorem C78_same (C : Cfg) (ms : List Move) (hms : ∀ m ∈ ms, m = .ctl ∨ ∃ n, m = .begin n ∨ m = .finish n)
    (hp : (exec { C with threadCount := 1 } ms).phase = .finished ∨
      ∃ e, (exec { C with threadCount := 1 } ms).phase = .threw e) :
    ∃ k, (exec { C with threadCount := 0 } (List.replicate k .ctl)).phase =
        (exec { C with threadCount := 1 } ms).phase ∧
      untimed (exec { C with threadCount := 0 } (List.replicate k .ctl)).trace =
        untimed (exec { C with threadCount := 1 } ms).trace ∧
      (exec { C with threadCount := 0 } (List.replicate k .ctl)).erec.untimed =
        (exec { C with threadCount := 1 } ms).erec.untimed ∧
      (exec { C with threadCount := 0 } (List.replicate k .ctl)).flags =
        (exec { C with threadCount := 1 } ms).flags := by
  obtain ⟨k, hk⟩ := sim_exec C ms fun m hm => by
    rcases hms m hm with rfl | ⟨n, rfl | rfl⟩ <;> rfl
  have ht := sim_phase hk hp
  exact ⟨k, ht.phase.symm, ht.trace.symm, ht.erec.symm, ht.flags.symm⟩

/-- So with one worker thread the outcome does not depend on the schedule. -/
theorem C78_schedule (C : Cfg) (hc : C.threadCount = 1) (ms ms' : List Move)
    (hms : ∀ m ∈ ms, m = .ctl ∨ ∃ n, m = .begin n ∨ m = .finish n)
    (hms' : ∀ m ∈ ms', m = .ctl ∨ ∃ n, m = .begin n ∨ m = .finish n)
    (hp : (exec C ms).phase = .finished ∨ ∃ e, (exec C ms).phase = .threw e)
    (hp' : (exec C ms').phase = .finished ∨ ∃ e, (exec C ms').phase = .threw e) :
    (exec C ms).phase = (exec C ms').phase ∧
      untimed (exec C ms).trace = untimed (exec C ms').trace ∧
      (exec C ms).erec.untimed = (exec C ms').erec.untimed := by
  have e : C = { C with threadCount := 1 } := by rw [← hc]
  rw [e] at hp hp' ⊢
  obtain ⟨k, h1, h2, h3, _⟩ := C78_same C ms hms hp
  obtain ⟨l, g1, g2, g3, _⟩ := C78_same C ms' hms' hp'
  have hkl : k = l := seq_over_unique (by rw [h1]; exact hp) (by rw [g1]; exact hp')
  subst hkl
  exact ⟨h1.symm.trans g1, h2.symm.trans g2, h3.symm.trans g3⟩

theorem collect_trace_prefix (C : Cfg) (s : St) (r : Node) (h : Handle) (rest : List Slot) :
    s.trace <+: (collect C s r h rest).trace := by
  unfold collect
  dsimp only
  cases (asyncLambda (C.outcome h.node)).retcode with
  | none => exact List.prefix_refl _
  | some rc =>
    dsimp only [complete, St.emit]
    split
    · exact ⟨_, (List.append_assoc _ _ _).symm⟩
    · exact ⟨_, (List.append_assoc _ _ _).symm⟩

/-- At every moment an observer of an execution with one worker thread has seen an initial part of
what an observer of the sequential execution sees. -/
theorem C78_prefix (C : Cfg) (ms : List Move) (hms : ∀ m ∈ ms, m = .ctl ∨ ∃ n, m = .begin n ∨ m = .finish n) :
    ∃ k, untimed (exec { C with threadCount := 1 } ms).trace <+:
      untimed (exec { C with threadCount := 0 } (List.replicate k .ctl)).trace := by
  obtain ⟨k, hk⟩ := sim_exec C ms fun m hm => by
    rcases hms m hm with rfl | ⟨n, rfl | rfl⟩ <;> rfl
  cases hk with
  | twin h => exact ⟨k, by rw [show untimed (exec { C with threadCount := 1 } ms).trace = _ from h.trace]
                           exact List.prefix_refl _⟩
  | ub h => exact ⟨k, by rw [show untimed (exec { C with threadCount := 1 } ms).trace = _ from h.trace]
                         exact List.prefix_refl _⟩
  | flight r n d h hf =>
    refine ⟨k + 1, ?_⟩
    have e0 : exec { C with threadCount := 0 } (List.replicate (k + 1) .ctl) =
        startRun (C.withThreads 0) (exec (C.withThreads 0) (List.replicate k .ctl)) true r ⟨n, false, 0⟩ [] := by
      have e : exec { C with threadCount := 0 } (List.replicate (k + 1) .ctl) =
          ctlStep (C.withThreads 0) (exec (C.withThreads 0) (List.replicate k .ctl)) true := by
        unfold exec; rw [List.replicate_succ', List.foldl_append]; rfl
      rw [e]
      unfold ctlStep; rw [hf.p0]
      show cleanStep _ _ true d = _
      unfold cleanStep; rw [hf.todo0]; rfl
    rw [e0, startRun_seq _ _ _ _ _ _ hf.inval.1 hf.deps hf.inval.2 rfl]
    refine List.IsPrefix.trans ?_ ((collect_trace_prefix _ _ _ _ _).filterMap Event.untimed)
    show untimed (exec (C.withThreads 1) ms).trace <+: untimed (_ ++ _ ++ _ ++ _)
    rw [hf.trace, untimed_append, untimed_append, untimed_append, List.append_assoc, List.append_assoc]
    refine List.prefix_append_right_inj _ |>.mpr ?_
    cases (exec (C.withThreads 1) ms).worker n
    · exact ⟨[.jobBegin n true, .jobEnd n], rfl⟩
    · exact ⟨[.jobBegin n true, .jobEnd n], rfl⟩
    · exact ⟨[.jobEnd n], rfl⟩
    · exact ⟨[], rfl⟩

/-- three tasks: after every third portion of the control thread the worker ends its job -/
def Ex.oneSched : List Move :=
  (List.replicate 12 [Move.ctl, .ctl, .begin 1, .begin 2, .begin 3, .ctl, .finish 1, .finish 2,
    .finish 3]).flatten ++ [.ctl, .ctl]

example : (exec (Ex.par 1) Ex.oneSched).phase = .finished ∧
    untimed (exec (Ex.par 1) Ex.oneSched).trace = untimed (exec (Ex.par 0) (List.replicate 21 .ctl)).trace := by
  decide +kernel

/-- the executions are not the same when `on_tick` counts: waiting for the worker takes ticks -/
example : ((exec (Ex.par 1) Ex.oneSched).trace.filter fun e => e matches .onTick _).length ≠
    ((exec (Ex.par 0) (List.replicate 21 .ctl)).trace.filter fun e => e matches .onTick _).length := by
  decide +kernel

/-- six portions of the control thread, then the jobs in `l` are executed if they can be -/
def Ex.rounds (l : List Node) (n : Nat) : List Move :=
  (List.replicate n (List.replicate 6 Move.ctl ++ l.flatMap fun i => [.begin i, .finish i])).flatten

/-- with two threads the order depends on the schedule: 3 can end after 1 and before it -/
example : (exec (Ex.par 2) (Ex.rounds [1, 2, 3] 5)).phase = .finished ∧
    (exec (Ex.par 2) (Ex.rounds [3] 10 ++ Ex.rounds [1, 2, 3] 4 ++ [.ctl])).phase = .finished ∧
    (exec (Ex.par 2) (Ex.rounds [1, 2, 3] 5)).erec.runs.map RunRecord.node = [1, 3, 2] ∧
    (exec (Ex.par 2) (Ex.rounds [3] 10 ++ Ex.rounds [1, 2, 3] 4 ++ [.ctl])).erec.runs.map RunRecord.node =
      [3, 1, 2] := by decide +kernel

end Joque
