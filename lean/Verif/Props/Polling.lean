import Verif.Props.OneTick

/-! # What polling costs: how long `run( period )` takes (C122) -/

namespace Joque

variable {C : Cfg}

/-- `clock i` is the time of event `i` of the history `tr` of an execution driven by `run` as described by `P`:
a tick begins and ends when `P` says, and what the calling thread does in it happens in between. -/
structure Timed (P : Pace) (tr : List Event) (clock : Nat → Int) : Prop extends Paced P tr clock where
  within : ∀ i e, tr[i]? = some e → e.isJob = false → clock i ≤ P.ends (Joque.ticks (tr.take (i + 1)) - 1)

/-- `D n` is the time from the creation of the thread for the job of `n` until the job has ended. -/
def Spans (clock : Nat → Int) (tr : List Event) (D : Node → Int) : Prop :=
  ∀ n i j, tr[i]? = some (.launch n) → tr[j]? = some (.jobEnd n) → clock j - clock i = D n

/-- The jobs that were executed according to the record. -/
def ExecRecord.executed (er : ExecRecord) : List Node :=
  (er.runs.filter fun r => r.status = .ok ∨ r.status = .fail).map RunRecord.node

/-! ### The schedule is met -/

theorem schedule_busy {P : Pace} (hlen : ∀ k, (P.late k + P.len k : Int) ≤ P.period) (k : Nat) :
    ∀ j ≤ k, P.busy j k ≤ ((k - j : Nat) : Int) * P.period := by
  induction k with
  | zero => intro j hj; have : j = 0 := by omega
            subst this; simp [busy_self]
  | succ k ih =>
    intro j hj
    by_cases hk : j = k + 1
    · subst hk; simp [busy_self]
    · rw [busy_succ P (by omega), show k + 1 - j = (k - j) + 1 by omega]
      have := ih j (by omega)
      have := hlen k
      push_cast
      rw [Int.add_mul]
      omega

theorem schedule_met {P : Pace} {ε : Int} (hε : ∀ k, (P.late k + P.len k : Int) ≤ ε) (hp : ε ≤ P.period)
    (k : Nat) : P.t0 + k * P.period ≤ P.begins k ∧ P.ends k ≤ P.t0 + k * P.period + ε := by
  have h1 := (C92_on_schedule P k).2 (schedule_busy (fun k => (hε k).trans hp) k)
  have h2 := hε k
  have h3 : P.ends k = P.begins k + P.len k := rfl
  omega

/-! ### One job -/

/-- the history begins with a resumption -/
theorem trace_head (hwf : C.dag.WF) (ms : List Move) (hne : (exec C ms).trace ≠ []) :
    (exec C ms).trace.head? = some .resumed := by
  obtain ⟨mid, h1, _⟩ := prologue_tail (C := C) hwf
  rcases (tinv_exec hwf ms).pro with ⟨_, h⟩ | ⟨rest, h, _⟩ | ⟨_, _, ⟨more, h⟩⟩
  · exact absurd h hne
  · rw [h, h1]; rfl
  · rw [h1] at h
    cases ht : (exec C ms).trace with
    | nil => exact absurd ht hne
    | cons e l => rw [ht] at h; rw [(List.cons.inj h).1]; rfl

theorem ticks_pos (hwf : C.dag.WF) (ms : List Move) {p q : List Event} (h : (exec C ms).trace = p ++ q)
    (hp : p ≠ []) : 0 < ticks p := by
  have h1 := trace_head hwf ms (by rw [h]; simp [hp])
  cases p with
  | nil => exact absurd rfl hp
  | cons e p =>
    rw [h] at h1
    have : e = .resumed := by simpa using h1
    rw [this]
    simp [ticks]

theorem ticks_count (l : List Event) : l.count .resumed = ticks l := by
  unfold ticks List.count
  congr 1

theorem take_snoc {α : Type} (p : List α) (x : α) (q : List α) : (p ++ x :: q).take (p.length + 1) = p ++ [x] := by
  rw [show p ++ x :: q = (p ++ [x]) ++ q by simp, show p.length + 1 = (p ++ [x]).length by simp]
  exact List.take_left

/-- how the number of ticks a job lasts is related to the time it takes -/
theorem job_polled (hwf : C.dag.WF) {ms : List Move} {P : Pace} {ε : Int} {clock : Nat → Int}
    (hε : ∀ k, (P.late k + P.len k : Int) ≤ ε) (hp : ε ≤ P.period)
    (ht : Timed P (exec C ms).trace clock) {D : Node → Int} (hD : Spans clock (exec C ms).trace D)
    {n : Node} {k d : Nat} (hl : LaunchedIn (exec C ms).trace n k) (hf : FoundIn (exec C ms).trace n (k + d)) :
    d * P.period ≤ D n + P.period + ε ∧ D n ≤ d * P.period + ε := by
  obtain ⟨hI, hT⟩ := both_exec (C := C) hwf ms
  obtain ⟨p, er, r, ref, q, e, rfl, hst, hk⟩ := hf
  obtain ⟨p', q', e', hk'⟩ := hl
  have hr : r ∈ (exec C ms).erec.runs := by
    rw [← hT.recs, e, recsOf_append]
    exact List.mem_append_right _ (List.mem_cons_self ..)
  have hlaunch : Event.launch r.node ∈ (exec C ms).trace := by rw [e']; simp
  have hll := launch_mem_life.1 hlaunch
  have hrl := hT.lifeRec r hr
  have htc : C.threadCount ≠ 0 := by
    intro h0
    rw [hrl] at hll
    rcases hst with hs | hs <;> rw [hs] at hll <;> simp [recLife, h0] at hll
  have hlw : life r.node (exec C ms).trace = [.before, .launch, .begin false, .end, .log, .after] := by
    rw [hrl]
    rcases hst with hs | hs <;> rw [hs] <;> simp [recLife, htc]
  have h1 : ∀ a b, life r.node (a ++ b) = life r.node a ++ life r.node b := fun a b => List.filterMap_append
  -- the job ended before it was found finished, after its thread was created
  have hlp : life r.node p = [.before, .launch, .begin false, .end, .log] := by
    have h2 : life r.node (.afterRun er r ref :: q) = .after :: life r.node q := by simp [life, tagOf]
    have h3 := hlw
    rw [e, h1, h2] at h3
    rcases hx : life r.node p with _ | ⟨a, _ | ⟨b, _ | ⟨c, _ | ⟨d, _ | ⟨f, _ | ⟨g, l⟩⟩⟩⟩⟩⟩ <;> rw [hx] at h3 <;> simp at h3
    obtain ⟨rfl, rfl, rfl, rfl, rfl, -⟩ := h3
    rfl
  have hlp' : life r.node p' = [.before] := by
    have h2 : life r.node (.launch r.node :: q') = .launch :: life r.node q' := by simp [life, tagOf]
    have h3 := hlw
    rw [e', h1, h2] at h3
    rcases hx : life r.node p' with _ | ⟨a, _ | ⟨b, _ | ⟨c, _ | ⟨d, _ | ⟨f, _ | ⟨g, l⟩⟩⟩⟩⟩⟩ <;> rw [hx] at h3 <;> simp at h3
    obtain ⟨rfl, -⟩ := h3
    rfl
  obtain ⟨a, x, b, hab, hx, hla, -⟩ := life_split (n := r.node) (tr := p)
    (a := [.before, .launch, .begin false]) (x := .end) (b := [.log]) hlp
  rw [tag_end hx] at hab
  have hij : p'.length < a.length := by
    by_contra hc
    have h3 : p' <+: (exec C ms).trace := ⟨_, e'.symm⟩
    have h4 : a <+: (exec C ms).trace := ⟨.jobEnd r.node :: b ++ .afterRun er r ref :: q, by rw [e, hab]; simp⟩
    have h5 := (List.prefix_of_prefix_length_le h4 h3 (by omega))
    obtain ⟨y, hy⟩ := h5
    rw [← hy, h1, hla] at hlp'
    simp at hlp'
  have hi : (exec C ms).trace[p'.length]? = some (.launch r.node) := by rw [e']; simp
  have hj : (exec C ms).trace[a.length]? = some (.jobEnd r.node) := by rw [e, hab]; simp
  have hd := hD _ _ _ hi hj
  -- times
  have hpos : 0 < ticks p' := ticks_pos hwf ms e' (by rintro rfl; simp [life] at hlp')
  rw [ticks_count] at hk hk'
  have hS := fun k => schedule_met hε hp k
  have hkk : ((k - 1 : Nat) : Int) = (k : Int) - 1 := by omega
  have t1 : P.t0 + ((k : Int) - 1) * P.period ≤ clock p'.length := by
    have := paced_ge ht.toPaced e' hpos
    rw [hk', hkk] at this
    exact this
  have t2 : clock p'.length ≤ P.t0 + ((k : Int) - 1) * P.period + ε := by
    have h3 := ht.within _ _ hi rfl
    have h4 : (exec C ms).trace.take (p'.length + 1) = p' ++ [.launch r.node] := by
      rw [e', take_snoc]
    rw [h4, ticks_append, hk'] at h3
    have h5 : ticks [Event.launch r.node] = 0 := rfl
    have h6 := (hS (k - 1)).2
    rw [h5, Nat.add_zero] at h3
    rw [hkk] at h6
    exact h3.trans h6
  have t3 : clock a.length ≤ P.t0 + ((k : Int) + d - 1) * P.period + ε := by
    have hm : (exec C ms).trace[p.length]? = some (.afterRun er r ref) := by rw [e]; simp
    have h3 := ht.within _ _ hm rfl
    have h4 : (exec C ms).trace.take (p.length + 1) = p ++ [.afterRun er r ref] := by
      rw [e, take_snoc]
    rw [h4, ticks_append, hk] at h3
    have h5 : ticks [Event.afterRun er r ref] = 0 := rfl
    have h6 := (hS (k + d - 1)).2
    rw [h5, Nat.add_zero] at h3
    have h7 : ((k + d - 1 : Nat) : Int) = (k : Int) + d - 1 := by omega
    rw [h7] at h6
    have h8 := ht.mono a.length p.length (by rw [hab]; simp)
    omega
  have hε0 : 0 ≤ ε := by have := hε 0; omega
  have e1 : ((k : Int) + d - 1) * P.period = ((k : Int) - 1) * P.period + d * P.period := by ring
  refine ⟨?_, by omega⟩
  by_cases hd2 : d < 2
  · have h3 : 0 ≤ D r.node := by
      have := ht.mono p'.length a.length (by omega)
      omega
    have h4 : (d : Int) * P.period ≤ 1 * P.period :=
      Int.mul_le_mul_of_nonneg_right (by omega) (by omega)
    omega
  · -- the job had not ended when the tick before began
    have hm : Event.resumed ∈ p := by
      by_contra hc
      rw [ticks_zero hc] at hk
      omega
    obtain ⟨u, v, rfl, hv⟩ := split_last hm
    have hku : ticks u = k + d - 1 := by
      have h3 : ticks (Event.resumed :: v) = 1 := by
        have : ticks (Event.resumed :: v) = ticks v + 1 := by simp [ticks]
        rw [this, ticks_zero hv]
      rw [ticks_append, h3] at hk
      omega
    have hm : Event.resumed ∈ u := by
      by_contra hc
      rw [ticks_zero hc] at hku
      omega
    obtain ⟨u, w, rfl, hw⟩ := split_last hm
    have hku : ticks u = k + d - 2 := by
      have h3 : ticks (Event.resumed :: w) = 1 := by
        have : ticks (Event.resumed :: w) = ticks w + 1 := by simp [ticks]
        rw [this, ticks_zero hw]
      rw [ticks_append, h3] at hku
      omega
    have hdec : (exec C ms).trace = u ++ .resumed :: (w ++ .resumed :: (v ++ .afterRun er r ref :: q)) := by
      rw [e]; simp
    have hP := (C79_prompt C hwf ms u w _ hdec hw).1 r.node
    have hin : Event.launch r.node ∈ u := by
      have h3 : p' <+: (exec C ms).trace := ⟨_, e'.symm⟩
      have hlt : p'.length < u.length := by
        by_contra hc
        have h4 : u ++ [.resumed] <+: p' ++ [.launch r.node] := by
          refine List.prefix_of_prefix_length_le (l₃ := (exec C ms).trace)
            ⟨w ++ .resumed :: (v ++ .afterRun er r ref :: q), ?_⟩ ⟨q', ?_⟩ (by simp; omega)
          · rw [hdec]; simp
          · rw [e']; simp
        have h5 := h4.sublist.countP_le (p := (· = Event.resumed))
        have h6 : ticks (u ++ [Event.resumed]) ≤ ticks (p' ++ [Event.launch r.node]) := h5
        have h7 : ticks [Event.resumed] = 1 := rfl
        have h8 : ticks [Event.launch r.node] = 0 := rfl
        rw [ticks_append, ticks_append, h7, h8] at h6
        omega
      have h4 : (exec C ms).trace[p'.length]? = u[p'.length]? := by
        rw [hdec, List.getElem?_append_left hlt]
      rw [hi] at h4
      exact List.mem_of_getElem? h4.symm
    have hne : ¬ JobEnded u r.node := by
      intro hje
      obtain ⟨r', hr', hn'⟩ := hP hin hje
      have h3 : Tag.after ∈ life r.node (u ++ .resumed :: w) := by
        obtain ⟨er', ref', h4⟩ := mem_recsOf.1 hr'
        exact List.mem_filterMap.2 ⟨_, h4, by simp [tagOf, hn']⟩
      rw [show u ++ Event.resumed :: w ++ Event.resumed :: v = (u ++ .resumed :: w) ++ (.resumed :: v) from rfl,
        h1] at hlp
      have : Tag.after ∈ life r.node (u ++ .resumed :: w) ++ life r.node (.resumed :: v) :=
        List.mem_append_left _ h3
      rw [hlp] at this
      simp at this
    have hle : u.length ≤ a.length := by
      by_contra hc
      have h4 : (exec C ms).trace[a.length]? = u[a.length]? := by
        rw [hdec, List.getElem?_append_left (by omega)]
      rw [hj] at h4
      exact hne (List.mem_of_getElem? h4.symm)
    have t4 : P.t0 + ((k : Int) + d - 2) * P.period ≤ clock a.length := by
      have h3 := ht.ticks u.length (by rw [hdec]; simp)
      have h4 : (exec C ms).trace.take u.length = u := by rw [hdec]; simp
      rw [h4, hku] at h3
      have h5 := (hS (k + d - 2)).1
      have h6 := ht.mono _ _ hle
      have h7 : ((k + d - 2 : Nat) : Int) = (k : Int) + d - 2 := by omega
      rw [h7] at h5
      omega
    have e2 : ((k : Int) + d - 2) * P.period = ((k : Int) - 1) * P.period + d * P.period - P.period := by ring
    omega

/-! ### All jobs -/

/-- with threads, a job that was executed was executed on one -/
theorem launched_of_run (hwf : C.dag.WF) (hc : C.threadCount ≠ 0) {ms : List Move} {r : RunRecord}
    (hr : r ∈ (exec C ms).erec.runs) (hst : r.status = .ok ∨ r.status = .fail) :
    ∃ k, LaunchedIn (exec C ms).trace r.node k := by
  have hT := tinv_exec (C := C) hwf ms
  have h1 := hT.lifeRec r hr
  have h2 : Tag.launch ∈ life r.node (exec C ms).trace := by
    rw [h1]
    rcases hst with hs | hs <;> rw [hs] <;> simp [recLife, hc]
  obtain ⟨p, q, h3⟩ := List.append_of_mem (launch_mem_life.2 h2)
  exact ⟨_, p, q, h3, rfl⟩

theorem took_executed (er : ExecRecord) (d : Node → Nat) : er.took d = (er.executed.map d).sum := by
  unfold ExecRecord.took ExecRecord.executed
  rw [List.map_map]
  rfl

/-- the numbers of ticks all jobs last, and the times they take -/
theorem jobs_polled (hwf : C.dag.WF) (hc : C.threadCount ≠ 0) {ms : List Move} {P : Pace} {ε : Int}
    {clock : Nat → Int} (hε : ∀ k, (P.late k + P.len k : Int) ≤ ε) (hp : ε ≤ P.period)
    (ht : Timed P (exec C ms).trace clock) {D : Node → Int} (hD : Spans clock (exec C ms).trace D)
    {d : Node → Nat} (h : Lasts d (exec C ms).trace) :
    ((exec C ms).erec.took d : Int) * P.period ≤
      ((exec C ms).erec.executed.map D).sum + (exec C ms).erec.executed.length * (P.period + ε) ∧
    ((exec C ms).erec.executed.map D).sum ≤
      ((exec C ms).erec.took d : Int) * P.period + (exec C ms).erec.executed.length * ε := by
  have key : ∀ n ∈ (exec C ms).erec.executed, d n * P.period ≤ D n + P.period + ε ∧ D n ≤ d n * P.period + ε := by
    intro n hn
    obtain ⟨r, hr, rfl⟩ := List.mem_map.1 hn
    obtain ⟨hr, hst⟩ := List.mem_filter.1 hr
    obtain ⟨k, hk⟩ := launched_of_run hwf hc hr (by simpa using hst)
    exact job_polled hwf hε hp ht hD hk (h _ _ hk)
  rw [took_executed]
  generalize (exec C ms).erec.executed = l at key
  induction l with
  | nil => simp
  | cons n l ih =>
    obtain ⟨h1, h2⟩ := ih (fun x hx => key x (List.mem_cons_of_mem _ hx))
    obtain ⟨h3, h4⟩ := key n (List.mem_cons_self ..)
    simp only [List.map_cons, List.sum_cons, List.length_cons, Nat.cast_add, Nat.cast_one, Int.add_mul]
    omega

/-- **C122**.  With threads, `run( period )` returns at the latest when all jobs could have been executed one after
the other, with one period for each task, one more for each job that is executed, and one more; if no tick, with the
delay of its wake-up, takes longer than `ε`, which is at most the period, `ε` is to be added once for each job and
once more. -/
theorem C122_most (hwf : C.dag.WF) (hc : C.threadCount ≠ 0) {ms : List Move} (hf : (exec C ms).phase = .finished)
    {P : Pace} {ε : Int} {clock : Nat → Int} (hε : ∀ k, (P.late k + P.len k : Int) ≤ ε) (hp : ε ≤ P.period)
    (ht : Timed P (exec C ms).trace clock) {D : Node → Int} (hD : Spans clock (exec C ms).trace D) :
    P.ends (ticks (exec C ms).trace - 1) ≤ P.t0 + ((exec C ms).erec.executed.map D).sum +
      (C.dag.nodes.length + (exec C ms).erec.executed.length + 1) * P.period +
      ((exec C ms).erec.executed.length + 1) * ε := by
  obtain ⟨d, hd⟩ := C120_some hwf hf
  have h1 := C121_most hwf hc hf hd
  have h2 := (jobs_polled hwf hc hε hp ht hD hd).1
  have h3 := (schedule_met hε hp (ticks (exec C ms).trace - 1)).2
  have hε0 : 0 ≤ ε := by have := hε 0; omega
  have h4 : ((ticks (exec C ms).trace - 1 : Nat) : Int) * P.period ≤
      ((C.dag.nodes.length : Int) + 1 + (exec C ms).erec.took d) * P.period :=
    Int.mul_le_mul_of_nonneg_right (by omega) (by omega)
  rw [Int.add_mul] at h4
  have e1 : ((C.dag.nodes.length : Int) + (exec C ms).erec.executed.length + 1) * P.period +
      ((exec C ms).erec.executed.length + 1) * ε = ((C.dag.nodes.length : Int) + 1) * P.period +
      (exec C ms).erec.executed.length * (P.period + ε) + ε := by ring
  omega

/-- **C122**.  With one thread it returns at the earliest when all jobs could have been executed one after the other,
with one period for each task and one more (less `ε` for each job). -/
theorem C122_least (hwf : C.dag.WF) (hc : C.threadCount = 1) (hn : C.dag.nodes ≠ []) {ms : List Move}
    (hf : (exec C ms).phase = .finished)
    {P : Pace} {ε : Int} {clock : Nat → Int} (hε : ∀ k, (P.late k + P.len k : Int) ≤ ε) (hp : ε ≤ P.period)
    (ht : Timed P (exec C ms).trace clock) {D : Node → Int} (hD : Spans clock (exec C ms).trace D) :
    P.t0 + ((exec C ms).erec.executed.map D).sum + (C.dag.nodes.length + 1) * P.period -
      (exec C ms).erec.executed.length * ε ≤ P.ends (ticks (exec C ms).trace - 1) := by
  obtain ⟨d, hd⟩ := C120_some hwf hf
  have h1 := C121_exact hwf hc hn hf hd
  have h2 := (jobs_polled hwf (by omega) hε hp ht hD hd).2
  have h3 := (schedule_met hε hp (ticks (exec C ms).trace - 1)).1
  have h5 := (C92_not_before P (ticks (exec C ms).trace - 1)).2.1
  have h4 : ((ticks (exec C ms).trace - 1 : Nat) : Int) =
      (C.dag.nodes.length : Int) + 1 + (exec C ms).erec.took d := by omega
  rw [h4, Int.add_mul] at h3
  omega

/-- **C122**.  Without threads the jobs are executed in the ticks, of which there are `N + 2`.  `run` takes at most the
time the ticks take, with the delays of their wake-ups, and `N + 1` periods, and at least each of these. -/
theorem C122_none (hwf : C.dag.WF) (hc : C.threadCount = 0) (hn : C.dag.nodes ≠ []) {ms : List Move}
    (hf : (exec C ms).phase = .finished) (P : Pace) (hp : 0 ≤ P.period) :
    P.ends (ticks (exec C ms).trace - 1) ≤
      P.t0 + (C.dag.nodes.length + 1) * P.period + P.busy 0 (C.dag.nodes.length + 2) ∧
    P.t0 + (C.dag.nodes.length + 1) * P.period ≤ P.ends (ticks (exec C ms).trace - 1) ∧
    P.t0 + P.busy 0 (C.dag.nodes.length + 2) ≤ P.ends (ticks (exec C ms).trace - 1) := by
  have hl : ∀ n, Event.launch n ∉ (exec C ms).trace := by
    intro n hl
    obtain ⟨hI, hT⟩ := both_exec (C := C) hwf ms
    have h1 := launch_mem_life.1 hl
    rcases life_shape hI hT n with h | ⟨h, -⟩ | ⟨-, h⟩
    · have := h.subset h1; simp at this
    · exact h hc
    · have := h.subset h1; simp at this
  have h1 := (C92_ticks C hwf ms hf).2 hl
  rw [if_neg hn] at h1
  rw [h1, show C.dag.nodes.length + 2 - 1 = C.dag.nodes.length + 1 from rfl]
  obtain ⟨h2, j, hj, h3⟩ := C92_exact P (C.dag.nodes.length + 1)
  have h4 := (C92_not_before P (C.dag.nodes.length + 1))
  have h5 : P.ends (C.dag.nodes.length + 1) =
    P.begins (C.dag.nodes.length + 1) + P.len (C.dag.nodes.length + 1) := rfl
  have h6 := busy_succ P (j := 0) (k := C.dag.nodes.length + 1) (Nat.zero_le _)
  have h7 := h2 0 (Nat.zero_le _)
  have h8 : P.busy j (C.dag.nodes.length + 1) ≤ P.busy 0 (C.dag.nodes.length + 1) := by
    have : ∀ k ≥ j, P.busy j k ≤ P.busy 0 k := by
      intro k hk
      induction k, hk using Nat.le_induction with
      | base =>
        rw [busy_self]
        unfold Pace.busy
        generalize List.range' 0 (j - 0) = l
        induction l with
        | nil => simp
        | cons i l ih => rw [List.map_cons, List.sum_cons]; omega
      | succ k hk ih =>
        rw [busy_succ P hk, busy_succ P (Nat.zero_le k)]
        omega
    exact this _ hj
  have h9 : (j : Int) * P.period ≤ ((C.dag.nodes.length + 1 : Nat) : Int) * P.period :=
    Int.mul_le_mul_of_nonneg_right (by omega) hp
  have h10 := h4.1
  push_cast at h9 h10
  rw [show C.dag.nodes.length + 2 = C.dag.nodes.length + 1 + 1 from rfl, h6]
  simp only [Nat.cast_zero, Int.zero_mul, Int.add_zero] at h7
  refine ⟨?_, ?_, ?_⟩ <;> omega

/-! ### Examples -/

/-- everything happens when its tick begins -/
def Ex.early (P : Pace) (tr : List Event) (i : Nat) : Int := P.begins (ticks (tr.take (i + 1)) - 1)

theorem Ex.early_timed (P : Pace) (tr : List Event) : Timed P tr (Ex.early P tr) := by
  refine ⟨⟨fun i j h => begins_mono P ?_, fun i hi => ?_⟩, fun i e _ _ => (C92_not_before P _).2.1⟩
  · have h1 : (tr.take (i + 1)) <+: (tr.take (j + 1)) := List.take_prefix_take_left (by omega)
    have := h1.sublist.countP_le (p := (· = Event.resumed))
    show ticks _ - 1 ≤ ticks _ - 1
    unfold Joque.ticks; omega
  · unfold Ex.early
    rw [List.take_add_one, hi, ticks_append]
    rfl

theorem spans_of_list {clock : Nat → Int} {tr : List Event} {D : Node → Int}
    (h : (tr.zipIdx.all fun x => match x.1 with
      | .launch n => tr.zipIdx.all fun y => match y.1 with
        | .jobEnd m => decide (n = m → clock y.2 - clock x.2 = D n)
        | _ => true
      | _ => true) = true) : Spans clock tr D := by
  intro n i j hi hj
  have h1 := List.all_eq_true.1 h (.launch n, i) (List.mem_zipIdx_iff_getElem?.2 hi)
  have h2 := List.all_eq_true.1 h1 (.jobEnd n, j) (List.mem_zipIdx_iff_getElem?.2 hj)
  exact of_decide_eq_true h2 rfl

/-- ticks every 10, which take no time -/
def Ex.tens : Pace := ⟨0, 10, fun _ => 0, fun _ => 0⟩

/-- one thread, three jobs, which take 0, 10 and 10: the ticks that find them finished come 10 later.  `run` returns as
late as possible. -/
theorem Ex.early_spans : Spans (Ex.early Ex.tens (exec (Ex.cfg 1) Ex.done1).trace) (exec (Ex.cfg 1) Ex.done1).trace
    (fun n => if n = 1 then 0 else 10) := spans_of_list (by decide +kernel)

example : Ex.tens.ends (ticks (exec (Ex.cfg 1) Ex.done1).trace - 1) = 110 ∧
    (110 : Int) = 0 + (0 + 10 + 10) + (5 + 3 + 1) * 10 + (3 + 1) * 0 := by decide +kernel

example : Ex.tens.ends (ticks (exec (Ex.cfg 1) Ex.done1).trace - 1) ≤ 110 :=
  (C122_most (ε := 0) (Ex.wf 1) (by decide) Ex.fin1 (fun _ => by simp [Ex.tens]) (by decide)
    (Ex.early_timed _ _) Ex.early_spans).trans (by decide +kernel)

/-- jobs begin and end when the next tick begins -/
def Ex.tardyAt (P : Pace) (tr : List Event) (i : Nat) : Int :=
  match tr[i]? with
  | some e => if e.isJob then P.begins (ticks (tr.take (i + 1))) else P.begins (ticks (tr.take (i + 1)) - 1)
  | none => P.begins (ticks tr)

def Ex.tardy (i : Nat) : Int := Ex.tardyAt Ex.tens (exec (Ex.cfg 1) Ex.done1).trace i

theorem Ex.tardy_timed : Timed Ex.tens (exec (Ex.cfg 1) Ex.done1).trace Ex.tardy := by
  have hlen : (exec (Ex.cfg 1) Ex.done1).trace.length = 55 := by decide +kernel
  have hsmall : ∀ i ∈ List.range 55, Ex.tardy i ≤ Ex.tardy (i + 1) := by decide +kernel
  have hbig : ∀ i, 55 ≤ i → Ex.tardy i = Ex.tardy (i + 1) := by
    intro i hi
    unfold Ex.tardy Ex.tardyAt
    rw [List.getElem?_eq_none (by omega), List.getElem?_eq_none (by omega)]
  refine ⟨⟨fun i j h => ?_, fun i hi => ?_⟩, fun i e hi hj => ?_⟩
  · refine monotone_nat_of_le_succ (fun k => ?_) h
    by_cases hk : k < 55
    · exact hsmall k (List.mem_range.2 hk)
    · exact (hbig k (by omega)).le
  · unfold Ex.tardy Ex.tardyAt
    rw [hi, List.take_add_one, hi, ticks_append]
    rfl
  · unfold Ex.tardy Ex.tardyAt
    rw [hi]
    dsimp only
    rw [hj]
    exact (C92_not_before _ _).2.1

/-- the same ticks, but the jobs take 10, 20 and 20 and are found finished at once: `run` returns as early as possible -/
theorem Ex.tardy_spans : Spans Ex.tardy (exec (Ex.cfg 1) Ex.done1).trace (fun n => if n = 1 then 10 else 20) :=
  spans_of_list (by decide +kernel)

example : (110 : Int) = 0 + (10 + 20 + 20) + (5 + 1) * 10 - 3 * 0 ∧
    110 ≤ Ex.tens.ends (ticks (exec (Ex.cfg 1) Ex.done1).trace - 1) :=
  ⟨by decide, Int.le_trans (by decide +kernel) (C122_least (ε := 0) (Ex.wf 1) rfl (by decide) Ex.fin1
    (fun _ => by simp [Ex.tens]) (by decide) Ex.tardy_timed Ex.tardy_spans)⟩

/-- two threads: it returns after 80, the bound is 100 -/
example : Ex.tens.ends (ticks (exec (Ex.cfg 2) Ex.done2).trace - 1) = 80 ∧
    Ex.tens.ends (ticks (exec (Ex.cfg 2) Ex.done2).trace - 1) ≤ 100 :=
  ⟨by decide +kernel, (C122_most (ε := 0) (D := fun n => if n = 4 then 10 else 0) (Ex.wf 2) (by decide) Ex.fin2
    (fun _ => by simp [Ex.tens]) (by decide) (Ex.early_timed _ _) (spans_of_list (by decide +kernel))).trans
      (by decide +kernel)⟩

/-- no threads: the third tick, with the first job, takes 35 -/
example : (⟨0, 10, fun _ => 0, fun k => if k = 2 then 35 else 0⟩ : Pace).ends
    (ticks (exec (Ex.cfg 0) Ex.done0).trace - 1) ≤ 95 :=
  (C122_none (Ex.wf 0) rfl (by decide) Ex.fin0 _ (by decide)).1.trans (by decide +kernel)

end Joque
