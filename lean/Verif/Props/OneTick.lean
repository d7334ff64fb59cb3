import Verif.Proof.ManyTick
import Verif.Props.Replay
import Verif.Props.Exec4
import Verif.Props.Pace
import Verif.Props.Applied

/-! # How many ticks an execution takes with one thread (C121) -/

namespace Joque

variable {C : Cfg} {d d' : Node → Nat}

theorem Lasts.soFar (hwf : C.dag.WF) {ms : List Move} (h : Lasts d (exec C ms).trace) :
    TookSoFar d (exec C ms).trace :=
  fun n j _ hj hk => foundIn_unique hwf ms hk (h n j hj)

/-- **C121**.  With one thread an execution of `N > 0` tasks takes exactly `N + 2` ticks and the ticks its jobs
last. -/
theorem C121_exact (hwf : C.dag.WF) (hc : C.threadCount = 1) (hn : C.dag.nodes ≠ []) {ms : List Move}
    (hf : (exec C ms).phase = .finished) (h : Lasts d (exec C ms).trace) :
    ticks (exec C ms).trace = C.dag.nodes.length + 2 + (exec C ms).erec.took d := by
  obtain ⟨hI, hT⟩ := both_exec (C := C) hwf ms
  have hh := (hT.afterExec _ (hT.isFinished hf)).2
  have h1 := (one_exec hwf hc ms (h.soFar hwf)).free (by rw [hh]; simp)
  unfold FreeTick at h1
  rw [hf] at h1
  dsimp only at h1
  have h2 : (exec C ms).toProcess = [] := hI.drain (by rw [hf]; rfl)
  rw [h2, tick_ticks] at h1
  rcases h1 with h1 | h1
  · exact absurd (List.length_eq_zero_iff.1 h1) hn
  · simpa using h1.symm

theorem took_eq (er : ExecRecord) (d : Node → Nat) : er.took d =
    (er.runs.map fun r => if r.status = .ok ∨ r.status = .fail then d r.node else 0).sum := by
  unfold ExecRecord.took
  induction er.runs with
  | nil => rfl
  | cons r l ih =>
    by_cases h : r.status = .ok ∨ r.status = .fail
    · simp only [List.filter_cons, decide_eq_true h, if_true, List.map_cons, List.sum_cons, if_pos h, ih]
    · simp only [List.filter_cons, decide_eq_false h, List.map_cons, List.sum_cons, if_neg h, ← ih]
      simp

theorem launch_node (hwf : C.dag.WF) (ms : List Move) {n : Node} (h : .launch n ∈ (exec C ms).trace) :
    n ∈ C.dag.nodes := by
  obtain ⟨hI, hT⟩ := both_exec (C := C) hwf ms
  by_cases ha : n ∈ allNodes (exec C ms)
  · exact hI.inNodes n ha
  · have := launch_mem_life.1 h
    rcases hT.lifeOther n ha with h1 | ⟨h1, _⟩
    · rw [h1] at this; cases this
    · exact h1

/-- the same jobs are executed in all finished executions -/
theorem took_le {C' : Cfg} (hwf : C.dag.WF) (hra : ∀ a b, HasEdge C.dag .requires a b → AfterEdge C.dag a b)
    {k : Nat} (hC' : C' = { C with threadCount := k }) {ms ms' : List Move} (hf : (exec C ms).phase = .finished)
    (hf' : (exec C' ms').phase = .finished)
    (hd : ∀ r ∈ (exec C ms).erec.runs, r.status = .ok ∨ r.status = .fail → d r.node ≤ d' r.node) :
    (exec C ms).erec.took d ≤ (exec C' ms').erec.took d' := by
  have hdag : C'.dag = C.dag := by rw [hC']
  have hwf' : C'.dag.WF := by rw [hdag]; exact hwf
  have p1 := (C02_one_record C hwf ms hf).1
  have p2 := (C02_one_record C' hwf' ms' hf').1
  rw [hdag] at p2
  have hT := tinv_exec (C := C) hwf ms
  have hT' := tinv_exec (C := C') hwf' ms'
  have hs : SameProblem C C' id := by
    rw [hC']
    exact ⟨fun _ _ _ h => h, fun _ _ c _ h => ⟨c, h, rfl⟩, fun _ _ => rfl, fun _ _ => rfl⟩
  have key : ∀ r ∈ (exec C ms).erec.runs, ∀ r' ∈ (exec C' ms').erec.runs, r'.node = r.node →
      r.status = r'.status := by
    intro r hr r' hr' hn
    rw [← hT.recs] at hr
    rw [← hT'.recs] at hr'
    exact (C07_schedule_independence C C' id hwf hwf' hs hra (by rw [hdag]; exact hra) ms ms' r r' hr hr' hn).1
  rw [took_eq, took_eq]
  have p := p1.trans p2.symm
  generalize (exec C ms).erec.runs = l at *
  generalize (exec C' ms').erec.runs = l' at *
  have hnd : (l.map RunRecord.node).Nodup := p1.nodup_iff.2 hwf.nodup
  clear p1 p2 hf hf' hT hT'
  induction l generalizing l' with
  | nil => simp
  | cons r l ih =>
    have : r.node ∈ l'.map RunRecord.node := p.subset (by simp)
    obtain ⟨r', hr', hn⟩ := List.mem_map.1 this
    obtain ⟨a, b, rfl⟩ := List.append_of_mem hr'
    have hst := key r (by simp) r' (by simp) hn
    have hp : (l.map RunRecord.node).Perm ((a ++ b).map RunRecord.node) := by
      have h1 : ((a ++ r' :: b).map RunRecord.node).Perm (r.node :: (a ++ b).map RunRecord.node) := by
        rw [← hn, ← List.map_cons]
        exact List.perm_middle.map _
      exact (p.trans h1).cons_inv
    have := ih (fun x hx => hd x (by simp [hx])) (a ++ b)
      (fun x hx x' hx' => key x (by simp [hx]) x' (by
        rcases List.mem_append.1 hx' with h | h <;> simp [h])) hp (List.nodup_cons.1 hnd).2
    simp only [List.map_append, List.map_cons, List.sum_append, List.sum_cons] at this ⊢
    rw [← hst, hn]
    have h2 := hd r (by simp)
    by_cases h3 : r.status = .ok ∨ r.status = .fail
    · have := h2 h3
      rw [if_pos h3, if_pos h3]; omega
    · rw [if_neg h3, if_neg h3]; omega

/-- **C121**.  With one thread shorter jobs never make an execution longer (compare C94). -/
theorem C121_monotone (hwf : C.dag.WF) (hc : C.threadCount = 1)
    (hra : ∀ a b, HasEdge C.dag .requires a b → AfterEdge C.dag a b) {ms ms' : List Move}
    (hf : (exec C ms).phase = .finished) (hf' : (exec C ms').phase = .finished)
    (h : Lasts d (exec C ms).trace) (h' : Lasts d' (exec C ms').trace)
    (hd : ∀ n, d n ≤ d' n) : ticks (exec C ms).trace ≤ ticks (exec C ms').trace := by
  by_cases hn : C.dag.nodes = []
  · have h0 : ∀ ms n, Event.launch n ∉ (exec C ms).trace := by
      intro ms n hl
      have := launch_node hwf ms hl
      rw [hn] at this
      cases this
    rw [(C92_ticks C hwf ms hf).2 (h0 ms), (C92_ticks C hwf ms' hf').2 (h0 ms')]
  · rw [C121_exact hwf hc hn hf h, C121_exact hwf hc hn hf' h']
    have := took_le (C' := C) hwf hra (k := C.threadCount) rfl hf hf' (fun r _ _ => hd r.node)
    omega

/-- **C121**.  With more threads it takes at most so many: `N + 2` and the ticks all jobs last together. -/
theorem C121_most (hwf : C.dag.WF) (hc : C.threadCount ≠ 0) {ms : List Move}
    (hf : (exec C ms).phase = .finished) (h : Lasts d (exec C ms).trace) :
    ticks (exec C ms).trace ≤ C.dag.nodes.length + 2 + (exec C ms).erec.took d := by
  obtain ⟨hI, hT⟩ := both_exec (C := C) hwf ms
  have hh := (hT.afterExec _ (hT.isFinished hf)).2
  have h1 := many_exec hwf hc ms (h.soFar hwf)
  unfold ManyTick at h1
  rw [hf] at h1
  dsimp only at h1
  have h2 : (exec C ms).elapsed = 0 := by unfold St.elapsed; rw [hh]; rfl
  rw [h2, tick_ticks] at h1
  omega

/-- **C121**.  If every job lasts at most as many ticks as it does on a single thread, an execution with several
threads takes at most as many ticks as the one with a single thread. -/
theorem C121_threads (hwf : C.dag.WF) (hc : C.threadCount ≠ 0)
    (hra : ∀ a b, HasEdge C.dag .requires a b → AfterEdge C.dag a b) {ms ms' : List Move}
    (hf : (exec C ms).phase = .finished) (hf' : (exec { C with threadCount := 1 } ms').phase = .finished)
    (h : Lasts d (exec C ms).trace) (h' : Lasts d' (exec { C with threadCount := 1 } ms').trace)
    (hd : ∀ n, d n ≤ d' n) :
    ticks (exec C ms).trace ≤ ticks (exec { C with threadCount := 1 } ms').trace := by
  by_cases hn : C.dag.nodes = []
  · have h0 : ∀ n, Event.launch n ∉ (exec C ms).trace := by
      intro n hl
      have := launch_node hwf ms hl
      rw [hn] at this
      cases this
    have h1 : ∀ n, Event.launch n ∉ (exec { C with threadCount := 1 } ms').trace := by
      intro n hl
      have : n ∈ C.dag.nodes := launch_node (C := { C with threadCount := 1 }) hwf ms' hl
      rw [hn] at this
      cases this
    rw [(C92_ticks C hwf ms hf).2 h0, (C92_ticks { C with threadCount := 1 } hwf ms' hf').2 h1]
  · rw [C121_exact (C := { C with threadCount := 1 }) hwf rfl hn hf' h']
    have h1 := C121_most hwf hc hf h
    have := took_le hwf hra rfl hf hf' (fun r _ _ => hd r.node)
    show _ ≤ C.dag.nodes.length + 2 + _
    omega

/-! ### When threads run between the single calls of the control thread -/

theorem lasts_control {tr tr' : List Event} (h : control tr = control tr') : Lasts d tr → Lasts d tr' := by
  intro hl n k hk
  rw [launchedIn_control, ← h, ← launchedIn_control] at hk
  have := hl n k hk
  rwa [foundIn_control, h, ← foundIn_control] at this

theorem ticks_control (tr : List Event) : ticks (control tr) = ticks tr := by
  induction tr with
  | nil => rfl
  | cons e tr ih =>
    unfold control ticks at ih ⊢
    cases e <;> simp [List.filterMap_cons, Event.control, ih]

/-- what the control thread does is what it does in some execution in which threads run between portions -/
theorem fine_control (hwf : C.dag.WF) (fms : List FMove) (hp : (fexec C fms).pend = []) :
    ∃ ms, (fexec C fms).s = exec C ms ∧ control (fexec C fms).seen = control (exec C ms).trace := by
  obtain ⟨ms, h1, -, -, -, h2, -⟩ := C95_same C hwf fms
  rw [hp, List.append_nil] at h2
  exact ⟨ms, h1, by rw [← control_filter, h2, control_filter]⟩

/-- **C120** in durations, when threads run between the single calls of the control thread. -/
theorem C120_duration_fine (hwf : C.dag.WF) (d : Node → Nat) {fms fms' : List FMove}
    (hf : (fexec C fms).s.phase = .finished) (hf' : (fexec C fms').s.phase = .finished)
    (hp : (fexec C fms).pend = []) (hp' : (fexec C fms').pend = [])
    (h : Lasts d (fexec C fms).seen) (h' : Lasts d (fexec C fms').seen) :
    control (fexec C fms).seen = control (fexec C fms').seen ∧
      (fexec C fms).s.erec.untimed = (fexec C fms').s.erec.untimed := by
  obtain ⟨ms, e1, e2⟩ := fine_control hwf fms hp
  obtain ⟨ms', e1', e2'⟩ := fine_control hwf fms' hp'
  rw [e1] at hf
  rw [e1'] at hf'
  rw [e2, e2', e1, e1']
  exact C120_duration hwf d hf hf' (lasts_control e2 h) (lasts_control e2' h')

/-- **C121** when threads run between the single calls of the control thread. -/
theorem C121_fine (hwf : C.dag.WF) (hc : C.threadCount ≠ 0) (hn : C.dag.nodes ≠ []) {fms : List FMove}
    (hf : (fexec C fms).s.phase = .finished) (hp : (fexec C fms).pend = [])
    (h : Lasts d (fexec C fms).seen) :
    ticks (fexec C fms).seen ≤ C.dag.nodes.length + 2 + (fexec C fms).s.erec.took d ∧
    (C.threadCount = 1 → ticks (fexec C fms).seen = C.dag.nodes.length + 2 + (fexec C fms).s.erec.took d) := by
  obtain ⟨ms, e1, e2⟩ := fine_control hwf fms hp
  rw [e1] at hf ⊢
  have h := lasts_control e2 h
  rw [← ticks_control, e2, ticks_control]
  exact ⟨C121_most hwf hc hf h, fun h1 => C121_exact hwf h1 hn hf h⟩

/-! ### Examples -/

/-- one thread: jobs that last 1, 2 and 2 ticks -/
theorem Ex.done1_lasts : Lasts (fun n => if n = 1 then 1 else 2) (exec (Ex.cfg 1) Ex.done1).trace :=
  lasts_of_list (by decide +kernel)

example : ticks (exec (Ex.cfg 1) Ex.done1).trace = 5 + 2 + (1 + 2 + 2) :=
  (C121_exact (Ex.wf 1) rfl (by decide) Ex.fin1 Ex.done1_lasts).trans (by decide +kernel)

/-- two threads: three jobs that last one tick -/
theorem Ex.done2_lasts : Lasts (fun _ => 1) (exec (Ex.cfg 2) Ex.done2).trace :=
  lasts_of_list (by decide +kernel)

/-- 9 ticks, one less than `5 + 2 + 3` -/
example : ticks (exec (Ex.cfg 2) Ex.done2).trace = 9 ∧ ticks (exec (Ex.cfg 2) Ex.done2).trace ≤ 5 + 2 + 3 :=
  ⟨by decide +kernel, (C121_most (Ex.wf 2) (by decide) Ex.fin2 Ex.done2_lasts).trans (by decide +kernel)⟩

example : ticks (exec (Ex.cfg 2) Ex.done2).trace ≤ ticks (exec (Ex.cfg 1) Ex.done1).trace :=
  C121_threads (C := Ex.cfg 2) (Ex.wf 2) (by decide) (Ex.hra 2) Ex.fin2 Ex.fin1 Ex.done2_lasts Ex.done1_lasts
    (fun n => by split <;> omega)

/-- any run with one thread in which no job lasts longer takes at most 12 ticks -/
example (ms : List Move) (hf : (exec (Ex.cfg 1) ms).phase = .finished)
    (h : Lasts (fun _ => 1) (exec (Ex.cfg 1) ms).trace) : ticks (exec (Ex.cfg 1) ms).trace ≤ 12 :=
  (C121_monotone (Ex.wf 1) rfl (Ex.hra 1) hf Ex.fin1 h Ex.done1_lasts
    (fun n => by split <;> omega)).trans (by decide +kernel)

/-- single calls -/
example : ∃ fms, (fexec (Ex.cfg 1) fms).s.phase = .finished ∧ ticks (fexec (Ex.cfg 1) fms).seen = 12 := by
  obtain ⟨fms, h⟩ := C95_every (Ex.cfg 1) (Ex.wf 1) Ex.done1
  have hf : (fexec (Ex.cfg 1) fms).s.phase = .finished := by rw [h]; exact Ex.fin1
  have hl : Lasts (fun n => if n = 1 then 1 else 2) (fexec (Ex.cfg 1) fms).seen := by
    have e : (fexec (Ex.cfg 1) fms).seen = (exec (Ex.cfg 1) Ex.done1).trace := by rw [h]
    rw [e]; exact Ex.done1_lasts
  refine ⟨fms, hf, ?_⟩
  have e := (C121_fine (C := Ex.cfg 1) (fms := fms) (Ex.wf 1) Nat.one_ne_zero
    (List.cons_ne_nil _ _)
    hf (by rw [h]) hl).2 rfl
  refine e.trans ?_
  rw [h]
  decide +kernel

end Joque
