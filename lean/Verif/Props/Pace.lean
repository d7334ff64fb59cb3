import Verif.Model.Pace
import Verif.Proof.Pace
import Mathlib.Tactic.Ring
import Mathlib.Tactic.Linarith

/-! # C92: how `run` paces an execution -/

namespace Joque

/-! ## The clock alone -/

/-- time that iterations `j`, …, `k - 1` take, without the sleep asked for -/
def Pace.busy (P : Pace) (j k : Nat) : Int :=
  ((List.range' j (k - j)).map fun i => (P.late i + P.len i : Int)).sum

theorem busy_self (P : Pace) (k : Nat) : P.busy k k = 0 := by simp [Pace.busy]

theorem busy_succ (P : Pace) {j k : Nat} (h : j ≤ k) :
    P.busy j (k + 1) = P.busy j k + (P.late k + P.len k) := by
  unfold Pace.busy
  rw [show k + 1 - j = (k - j) + 1 by omega, List.range'_1_concat, List.map_append, List.sum_append]
  simp [show j + (k - j) = k by omega]

theorem pace_next (P : Pace) (k : Nat) : (P.before k).next = P.t0 + k * P.period := by
  induction k with
  | zero => simp [Pace.before]
  | succ k ih =>
    show (P.before k).next + P.period = _
    rw [ih]; push_cast; ring

/-- **C92**.  `tick` is called for the `k`-th time not before `k` periods after `run` was called, and the
calls do not overlap. -/
theorem C92_not_before (P : Pace) (k : Nat) :
    P.t0 + k * P.period ≤ P.begins k ∧ P.begins k ≤ P.ends k ∧ P.ends k ≤ P.begins (k + 1) := by
  refine ⟨?_, ?_, ?_⟩
  · rw [← pace_next]
    unfold Pace.begins Pace.wake
    omega
  · show P.begins k ≤ P.begins k + P.len k
    omega
  · unfold Pace.begins Pace.wake Pace.ends
    omega

/-- **C92**, exactly: the `k`-th tick begins when, counted from some earlier tick `j`'s scheduled time,
all the ticks since have been completed without a pause; whichever `j ≤ k` gives the latest time. -/
theorem C92_exact (P : Pace) (k : Nat) :
    (∀ j ≤ k, P.t0 + j * P.period + P.busy j k + P.late k ≤ P.begins k) ∧
    ∃ j ≤ k, P.begins k = P.t0 + j * P.period + P.busy j k + P.late k := by
  induction k with
  | zero =>
    have : P.begins 0 = P.t0 + P.late 0 := by simp [Pace.begins, Pace.wake, Pace.before]
    refine ⟨fun j hj => ?_, 0, Nat.le_refl _, ?_⟩
    · have : j = 0 := by omega
      subst this
      simp [busy_self, Pace.begins, Pace.wake, Pace.before]
    · simp [busy_self, this]
  | succ k ih =>
    have hb : P.begins (k + 1) =
        max (P.begins k + P.len k) (P.t0 + (k + 1 : Nat) * P.period) + P.late (k + 1) := by
      rw [← pace_next]; rfl
    obtain ⟨h1, j, hj, h2⟩ := ih
    rw [hb]
    refine ⟨fun i hi => ?_, ?_⟩
    · by_cases hk : i = k + 1
      · subst hk
        rw [busy_self]
        omega
      · have := h1 i (by omega)
        rw [busy_succ P (by omega)]
        omega
    · rcases Int.le_total (P.begins k + P.len k) (P.t0 + (k + 1 : Nat) * P.period) with h | h
      · exact ⟨k + 1, Nat.le_refl _, by rw [Int.max_eq_right h, busy_self]; omega⟩
      · refine ⟨j, by omega, ?_⟩
        rw [Int.max_eq_left h, busy_succ P hj, h2]
        omega

/-- **C92**, no drift: the `k`-th tick begins on schedule (up to the delay of its own wake-up) iff the
ticks since any earlier one took no longer than the periods between.  In particular a tick that takes
too long delays the following ones only until the time is made up for. -/
theorem C92_on_schedule (P : Pace) (k : Nat) :
    P.begins k = P.t0 + k * P.period + P.late k ↔ ∀ j ≤ k, P.busy j k ≤ ((k - j : Nat) : Int) * P.period := by
  obtain ⟨h1, j, hj, h2⟩ := C92_exact P k
  have hk : ∀ i ≤ k, ((k - i : Nat) : Int) * P.period = k * P.period - i * P.period := by
    intro i hi
    rw [Nat.cast_sub hi]; ring
  constructor
  · intro h i hi
    have := h1 i hi
    rw [hk i hi]
    omega
  · intro h
    have h3 := h j hj
    have h4 := h1 k (Nat.le_refl _)
    rw [hk j hj] at h3
    rw [busy_self] at h4
    omega

/-- **C92**: with a period that is not positive `run` never sleeps: every tick begins when the one before
it has returned. -/
theorem C92_busy (P : Pace) (h : P.period ≤ 0) (k : Nat) :
    P.asked k = 0 ∧ P.begins (k + 1) = P.ends k + P.late (k + 1) := by
  have h0 : ∀ k, (P.before k).next ≤ (P.before k).now := by
    intro k
    induction k with
    | zero => exact Int.le_refl _
    | succ k ih =>
      show (P.before k).next + P.period ≤ P.wake k (P.before k) + P.len k
      unfold Pace.wake
      omega
  have h1 := h0 k
  have h2 := h0 (k + 1)
  unfold Pace.asked Pace.begins Pace.wake Pace.ends
  omega

/-- ticks every 5; the third takes 12, the next two are late, then the schedule is met again -/
example : let P : Pace := ⟨100, 5, fun _ => 0, fun k => if k = 2 then 12 else 1⟩
    (List.range 7).map P.begins = [100, 105, 110, 122, 123, 125, 130] ∧
    (List.range 7).map P.asked = [0, 4, 4, 0, 0, 1, 4] := by decide +kernel

/-! ## An execution -/

/-- **C92**, how often `tick` is called until the execution is complete: at least twice more than there
are tasks, and exactly so often if no job is given to a thread (because all are up to date or left out, or
`thread_count` is 0); once if there are none. -/
theorem C92_ticks (C : Cfg) (hwf : C.dag.WF) (ms : List Move) (hf : (exec C ms).phase = .finished) :
    (C.dag.nodes ≠ [] → C.dag.nodes.length + 2 ≤ ticks (exec C ms).trace) ∧
    ((∀ n, .launch n ∉ (exec C ms).trace) →
      ticks (exec C ms).trace = if C.dag.nodes = [] then 1 else C.dag.nodes.length + 2) := by
  obtain ⟨h1, h2⟩ := ticks_exec hwf ms
  unfold TickLB at h1
  unfold TickEQ at h2
  rw [hf] at h1 h2
  dsimp only at h1 h2
  have h3 : C.dag.nodes ≠ [] → C.dag.nodes.length ≠ 0 := fun h h0 => h (List.length_eq_zero_iff.1 h0)
  refine ⟨fun h => ?_, fun hn => ?_⟩
  · have := h3 h; omega
  · have := h2 hn
    split
    · rename_i h; rw [h] at this; exact this.2 rfl
    · rename_i h; have := h3 h; omega

/-- **C92**, starts: before the task started as number `k` (from 0) is reported, `tick` has been called
at least `k + 2` times. -/
theorem C92_start_ticks (C : Cfg) (hwf : C.dag.WF) (ms : List Move) (pre post : List Event)
    (er : ExecRecord) (n : Node) (htr : (exec C ms).trace = pre ++ .beforeRun er n :: post) :
    starts pre + 2 ≤ ticks pre := by
  have h2 := two_exec hwf ms
  have h1 := C14_one_start_per_tick C hwf ms
  generalize (exec C ms).trace = tr at *
  subst htr
  have hs : ∀ a b, starts (a ++ b) = starts a + starts b := fun a b => List.countP_append ..
  suffices H : ∀ k, ∀ pre er n post', pre.length ≤ k →
      TwoFirst (pre ++ Event.beforeRun er n :: post') →
      (∀ (p m q : List Event) (e e' : ExecRecord) (a b : Node), pre ++ Event.beforeRun er n :: post' =
          p ++ Event.beforeRun e a :: m ++ Event.beforeRun e' b :: q → Event.resumed ∈ m) →
      starts pre + 2 ≤ ticks pre from
    H pre.length pre er n post (Nat.le_refl _) h2 fun p m q e e' a b h => h1 p m q e e' a b h
  intro k
  induction k with
  | zero =>
    intro pre er n post' hl ht hm
    have : pre = [] := List.length_eq_zero_iff.1 (by omega)
    subst this
    exact ht [] er n post' rfl
  | succ k ih =>
    intro pre er n post' hl ht hm
    by_cases hz : starts pre = 0
    · have := ht pre er n post' rfl; omega
    · -- the last start before
      have : ∃ p e a m, pre = p ++ Event.beforeRun e a :: m ∧ starts m = 0 := by
        clear ih ht hm hl h1 h2
        induction pre with
        | nil => exact absurd rfl hz
        | cons x pre ih =>
          by_cases h0 : starts pre = 0
          · cases x with
            | beforeRun e a => exact ⟨[], e, a, pre, rfl, h0⟩
            | _ => exact absurd (by simpa [starts, List.countP_cons] using h0) hz
          · obtain ⟨p, e, a, m, rfl, h⟩ := ih h0
            exact ⟨x :: p, e, a, m, rfl, h⟩
      obtain ⟨p, e, a, m, rfl, h0⟩ := this
      have hr := hm p m post' e er a n (by simp)
      have i1 := ih p e a (m ++ Event.beforeRun er n :: post') (by simp at hl; omega)
        (by simpa using ht) (by simpa using hm)
      have c1 : starts (p ++ Event.beforeRun e a :: m) = starts p + 1 := by
        rw [hs]
        have : starts (Event.beforeRun e a :: m) = starts m + 1 := by simp [starts]
        omega
      have c2 : ticks p + 1 ≤ ticks (p ++ Event.beforeRun e a :: m) := by
        rw [ticks_append]
        have : 0 < ticks (Event.beforeRun e a :: m) :=
          List.countP_pos_iff.2 ⟨_, List.mem_cons_of_mem _ hr, by simp⟩
        omega
      omega

/-- `clock i` is the time of event `i` of the history `tr` of an execution driven by `run` as described by
`P`. -/
structure Paced (P : Pace) (tr : List Event) (clock : Nat → Int) : Prop where
  mono : ∀ i j, i ≤ j → clock i ≤ clock j
  ticks : ∀ i, tr[i]? = some .resumed → clock i = P.begins (ticks (tr.take i))

/-- what happens after `k` resumptions happens not before the scheduled time of the last of them -/
theorem paced_ge {P : Pace} {tr : List Event} {clock : Nat → Int} (h : Paced P tr clock)
    {pre post : List Event} (htr : tr = pre ++ post) (hk : 0 < ticks pre) :
    P.t0 + ((ticks pre - 1 : Nat) : Int) * P.period ≤ clock pre.length := by
  obtain ⟨e, he, hx⟩ := List.countP_pos_iff.1 hk
  rw [decide_eq_true_eq] at hx
  subst hx
  obtain ⟨a, b, rfl, hb⟩ := split_last he
  have h1 : ticks (a ++ Event.resumed :: b) = ticks a + 1 := by
    rw [ticks_append]
    have : ticks (Event.resumed :: b) = ticks b + 1 := by simp [Joque.ticks]
    rw [this, ticks_zero hb]
  have h2 := h.ticks a.length (by rw [htr]; simp)
  have h3 : tr.take a.length = a := by rw [htr]; simp
  have h4 := h.mono a.length (a ++ Event.resumed :: b).length (by simp)
  have h5 := (C92_not_before P (ticks a)).1
  rw [h1, Nat.add_sub_cancel]
  rw [h3] at h2
  omega

theorem begins_mono (P : Pace) {j k : Nat} (h : j ≤ k) : P.begins j ≤ P.begins k := by
  induction h with
  | refl => exact Int.le_refl _
  | step h ih =>
    have := C92_not_before P
    exact Int.le_trans ih (Int.le_trans (this _).2.1 (this _).2.2)

/-- there is such a clock for every execution: here everything happens when its tick begins -/
example (P : Pace) (tr : List Event) : Paced P tr fun i => P.begins (ticks (tr.take (i + 1)) - 1) := by
  refine ⟨fun i j h => begins_mono P ?_, fun i hi => ?_⟩
  · have h1 : (tr.take (i + 1)) <+: (tr.take (j + 1)) := List.take_prefix_take_left (by omega)
    have := h1.sublist.countP_le (p := (· = Event.resumed))
    show ticks _ - 1 ≤ ticks _ - 1
    unfold Joque.ticks; omega
  · rw [List.take_add_one, hi, ticks_append]
    rfl

/-- **C92**, starts: with `run( period )` the task started as number `k` (from 0) is started not before
`k + 1` periods after `run` was called. -/
theorem C92_start (C : Cfg) (hwf : C.dag.WF) (ms : List Move) (P : Pace) (hP : 0 ≤ P.period)
    (clock : Nat → Int) (hc : Paced P (exec C ms).trace clock) (pre post : List Event)
    (er : ExecRecord) (n : Node) (htr : (exec C ms).trace = pre ++ .beforeRun er n :: post) :
    P.t0 + (starts pre + 1 : Nat) * P.period ≤ clock pre.length := by
  have h1 := C92_start_ticks C hwf ms pre post er n htr
  have h2 := paced_ge hc htr (by omega)
  refine Int.le_trans ?_ h2
  have : ((starts pre + 1 : Nat) : Int) * P.period ≤ ((ticks pre - 1 : Nat) : Int) * P.period :=
    Int.mul_le_mul_of_nonneg_right (by omega) hP
  omega

/-- **C92**, the end: with `run( period )` an execution of `N > 0` tasks, even if none has to be executed,
is not complete before `N + 1` periods have passed. -/
theorem C92_end (C : Cfg) (hwf : C.dag.WF) (hne : C.dag.nodes ≠ []) (ms : List Move)
    (hf : (exec C ms).phase = .finished) (P : Pace) (hP : 0 ≤ P.period)
    (clock : Nat → Int) (hc : Paced P (exec C ms).trace clock) :
    P.t0 + (C.dag.nodes.length + 1 : Nat) * P.period ≤ clock (exec C ms).trace.length := by
  have h1 := (C92_ticks C hwf ms hf).1 hne
  have h2 := paced_ge hc (pre := (exec C ms).trace) (post := []) (by simp) (by omega)
  refine Int.le_trans ?_ h2
  have : ((C.dag.nodes.length + 1 : Nat) : Int) * P.period ≤
      ((ticks (exec C ms).trace - 1 : Nat) : Int) * P.period :=
    Int.mul_le_mul_of_nonneg_right (by omega) hP
  omega

/-- **C92**, nothing to do: if no job is given to a thread, no tick takes longer than the period, and the
thread is woken in time, the last tick begins exactly `N + 1` periods after the call of `run`. -/
theorem C92_null (C : Cfg) (hwf : C.dag.WF) (hne : C.dag.nodes ≠ []) (ms : List Move)
    (hf : (exec C ms).phase = .finished) (hn : ∀ n, .launch n ∉ (exec C ms).trace)
    (P : Pace) (h0 : ∀ k, P.late k = 0) (hlen : ∀ k, P.len k ≤ P.period) :
    P.begins (ticks (exec C ms).trace - 1) = P.t0 + (C.dag.nodes.length + 1 : Nat) * P.period := by
  have h1 := (C92_ticks C hwf ms hf).2 hn
  rw [if_neg hne] at h1
  rw [h1]
  have h2 : ∀ k, ∀ j ≤ k, P.busy j k ≤ ((k - j : Nat) : Int) * P.period := by
    intro k
    induction k with
    | zero => intro j hj; have : j = 0 := by omega
              subst this; simp [busy_self]
    | succ k ih =>
      intro j hj
      by_cases hk : j = k + 1
      · subst hk; simp [busy_self]
      · rw [busy_succ P (by omega), show k + 1 - j = (k - j) + 1 by omega]
        have := ih j (by omega)
        have := h0 k
        have := hlen k
        push_cast
        rw [Int.add_mul]
        omega
  have := (C92_on_schedule P (C.dag.nodes.length + 2 - 1)).2 (h2 _)
  rw [h0] at this
  simpa using this

/-- five tasks, all up to date, two threads: seven ticks and no thread -/
def Ex.upToDate : Cfg := { Ex.cfg 2 with ask := fun _ => .answer { invalidated := false, log := [] } }

example : let s := exec Ex.upToDate (List.replicate 31 .ctl)
    s.phase = .finished ∧ (∀ n, Event.launch n ∉ s.trace) ∧ ticks s.trace = 7 ∧
    Ex.upToDate.dag.nodes.length = 5 ∧
    (⟨0, 5, fun _ => 0, fun _ => 1⟩ : Pace).begins (ticks s.trace - 1) = 30 := by
  refine ⟨by decide +kernel, fun n h => ?_, by decide +kernel, rfl, by decide +kernel⟩
  have : ∀ e ∈ (exec Ex.upToDate (List.replicate 31 .ctl)).trace,
      (match e with | .launch _ => false | _ => true) = true := by decide +kernel
  exact absurd (this _ h) (by simp)

end Joque
