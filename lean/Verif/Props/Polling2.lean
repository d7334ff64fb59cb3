import Verif.Props.Polling
import Verif.Props.Makespan

/-! # How long `run( period )` takes with several threads (C122) -/

namespace Joque

variable {C : Cfg}

theorem jobTicks_zero {l : List Event} {n : Node} (h : Event.launch n ∉ l) : jobTicks l n = 0 := by
  rw [jobTicks_eq]
  refine List.countP_eq_zero.2 fun i _ hi => ?_
  rw [decide_eq_true_eq] at hi
  exact h (List.mem_of_mem_take hi.2.1)

theorem jobTicks_grow (a b : List Event) (n : Node) : jobTicks (a ++ b) n ≤ jobTicks a n + ticks b := by
  classical
  induction b using List.reverseRecOn with
  | nil => simp
  | append_singleton b e ih =>
    unfold jobTicks at ih ⊢
    rw [← List.append_assoc, ticksWhere_snoc, ticks_append]
    by_cases he : e = .resumed
    · subst he
      have : ticks [Event.resumed] = 1 := rfl
      split <;> omega
    · rw [if_neg fun h => he h.1]
      omega

theorem jobTicks_ended {a : List Event} {n : Node} (h : JobEnded a n) (b : List Event) :
    jobTicks (a ++ b) n = jobTicks a n := by
  classical
  induction b using List.reverseRecOn with
  | nil => simp
  | append_singleton b e ih =>
    unfold jobTicks at ih ⊢
    rw [← List.append_assoc, ticksWhere_snoc, if_neg fun hh => hh.2.2 (List.mem_append_left _ h), ih]
    rfl

/-- how many ticks begin while a job is executed, and how long it is -/
theorem jobTicks_time (hwf : C.dag.WF) {ms : List Move} (hf : (exec C ms).phase = .finished) {P : Pace} {ε : Int}
    {clock : Nat → Int} (hε : ∀ k, (P.late k + P.len k : Int) ≤ ε) (hp : ε ≤ P.period)
    (ht : Timed P (exec C ms).trace clock) {D : Node → Int} (hD : Spans clock (exec C ms).trace D)
    (h0 : ∀ n, 0 ≤ D n) (n : Node) : jobTicks (exec C ms).trace n * P.period ≤ D n + ε := by
  have hε0 : 0 ≤ ε := by have := hε 0; omega
  by_cases hl : Event.launch n ∈ (exec C ms).trace
  swap
  · rw [jobTicks_zero hl]
    have := h0 n
    simp only [Nat.cast_zero, Int.zero_mul]
    omega
  obtain ⟨d, hd⟩ := C120_some hwf hf
  obtain ⟨p0, q0, e0⟩ := List.append_of_mem hl
  obtain ⟨p1, er, r, ref, q1, e1, rfl, hst, -⟩ := hd n _ ⟨p0, q0, e0, rfl⟩
  obtain ⟨hI, hT⟩ := both_exec (C := C) hwf ms
  have hr : r ∈ (exec C ms).erec.runs := by
    rw [← hT.recs, e1, recsOf_append]
    exact List.mem_append_right _ (List.mem_cons_self ..)
  have hll := launch_mem_life.1 hl
  have hrl := hT.lifeRec r hr
  have htc : C.threadCount ≠ 0 := by
    intro h0
    rw [hrl] at hll
    rcases hst with hs | hs <;> rw [hs] at hll <;> simp [recLife, h0] at hll
  have hlw : life r.node (exec C ms).trace = [.before, .launch, .begin false, .end, .log, .after] := by
    rw [hrl]
    rcases hst with hs | hs <;> rw [hs] <;> simp [recLife, htc]
  obtain ⟨p, x, q, e, hx, hlp, hlq⟩ := life_split (a := [.before]) (x := .launch) hlw
  obtain ⟨m, y, q, rfl, hy, -, -⟩ := life_split (a := [.begin false]) (x := .end) hlq
  rw [tag_end hy, tag_launch hx] at e
  have hp0 : p ≠ [] := by rintro rfl; simp [life] at hlp
  have hpos := ticks_pos hwf ms e hp0
  have hi : (exec C ms).trace[p.length]? = some (.launch r.node) := by rw [e]; simp
  have e' : (exec C ms).trace = (p ++ .launch r.node :: m) ++ .jobEnd r.node :: q := by rw [e]; simp
  have hj : (exec C ms).trace[(p ++ .launch r.node :: m).length]? = some (.jobEnd r.node) := by
    rw [e']; simp
  have hdd := hD _ _ _ hi hj
  have hnl : Event.launch r.node ∉ p := by
    intro h
    have := launch_mem_life.1 h
    rw [hlp] at this
    simp at this
  have hjt : jobTicks (exec C ms).trace r.node ≤ ticks m := by
    have h1 : (exec C ms).trace = (p ++ (.launch r.node :: m ++ [.jobEnd r.node])) ++ q := by rw [e]; simp
    rw [h1, jobTicks_ended (by simp [JobEnded])]
    have h2 := jobTicks_grow p (.launch r.node :: m ++ [.jobEnd r.node]) r.node
    have h3 : ticks (.launch r.node :: m ++ [.jobEnd r.node]) = ticks m := by
      simp [ticks, List.countP_append]
    rw [jobTicks_zero hnl, h3] at h2
    omega
  have t1 : clock p.length ≤ P.t0 + ((ticks p : Int) - 1) * P.period + ε := by
    have h3 := ht.within _ _ hi rfl
    rw [e, take_snoc, ticks_append] at h3
    have h5 : ticks [Event.launch r.node] = 0 := rfl
    have h6 := (schedule_met hε hp (ticks p - 1)).2
    have h7 : ((ticks p - 1 : Nat) : Int) = (ticks p : Int) - 1 := by omega
    rw [h5, Nat.add_zero] at h3
    rw [h7] at h6
    exact h3.trans h6
  have t2 := paced_ge ht.toPaced e' (by rw [ticks_append]; omega)
  have h3 : ticks (Event.launch r.node :: m) = ticks m := by simp [ticks]
  rw [ticks_append, h3] at t2
  have h7 : ((ticks p + ticks m - 1 : Nat) : Int) = ((ticks p : Int) - 1) + ticks m := by omega
  rw [h7, Int.add_mul] at t2
  have h8 : (jobTicks (exec C ms).trace r.node : Int) * P.period ≤ ticks m * P.period :=
    Int.mul_le_mul_of_nonneg_right (by omega) (by omega)
  omega

theorem sum_jobTicks_time {l : List Node} {f : Node → Nat} {D : Node → Int} {p ε : Int}
    (h : ∀ n, f n * p ≤ D n + ε) : ((l.map f).sum : Nat) * p ≤ (l.map D).sum + l.length * ε := by
  induction l with
  | nil => simp
  | cons n l ih =>
    simp only [List.map_cons, List.sum_cons, List.length_cons, Nat.cast_add, Nat.cast_one, Int.add_mul]
    have := h n
    omega

/-- **C122**.  With `k` threads `run( period )` takes at most `W / k + (1 - 1 / k) * L`, where `W` is the time of all
jobs together and `L` that of a chain of tasks each of which may have to wait for the next, and for each task three
periods and the time `ε` that a tick and the delay of its wake-up take at most. -/
theorem C122_parallel (hwf : C.dag.WF) (hc : C.threadCount ≠ 0) {ms : List Move}
    (hf : (exec C ms).phase = .finished)
    {P : Pace} {ε : Int} {clock : Nat → Int} (hε : ∀ k, (P.late k + P.len k : Int) ≤ ε) (hp : ε ≤ P.period)
    (ht : Timed P (exec C ms).trace clock) {D : Node → Int} (hD : Spans clock (exec C ms).trace D)
    (h0 : ∀ n, 0 ≤ D n) :
    ∃ chain : List Node, chain.IsChain (WaitsFor C.dag C.resources) ∧ chain.Nodup ∧ (∀ n ∈ chain, n ∈ C.dag.nodes) ∧
      C.threadCount * (P.ends (ticks (exec C ms).trace - 1) - P.t0) ≤
        (C.dag.nodes.map D).sum + (C.threadCount - 1) * (chain.map D).sum +
        C.threadCount * ((3 * C.dag.nodes.length + 2) * P.period + (C.dag.nodes.length + 1) * ε) := by
  obtain ⟨chain, c1, c2, c3, c4⟩ := C83_makespan C hwf ms
  refine ⟨chain, c1, c2, c3, ?_⟩
  have hε0 : 0 ≤ ε := by have := hε 0; omega
  have hj := jobTicks_time hwf hf hε hp ht hD h0
  have s1 := sum_jobTicks_time (l := C.dag.nodes) hj
  have s2 := sum_jobTicks_time (l := chain) hj
  have hlen : chain.length ≤ C.dag.nodes.length := (List.subperm_of_subset c2 c3).length_le
  obtain ⟨k, hk⟩ : ∃ k, C.threadCount = k + 1 := ⟨C.threadCount - 1, by omega⟩
  rw [hk] at c4 ⊢
  rw [Nat.add_sub_cancel] at c4
  have h3 := (schedule_met hε hp (ticks (exec C ms).trace - 1)).2
  have hpos : 0 < ticks (exec C ms).trace := by
    refine ticks_pos hwf ms (q := []) (by simp) fun h => ?_
    have := (tinv_exec (C := C) hwf ms).isFinished hf
    rw [h] at this
    cases this
  generalize (C.dag.nodes.map (jobTicks (exec C ms).trace)).sum = A at *
  generalize (chain.map (jobTicks (exec C ms).trace)).sum = B at *
  generalize (C.dag.nodes.map D).sum = W at *
  generalize (chain.map D).sum = L at *
  generalize P.ends (ticks (exec C ms).trace - 1) = E at *
  obtain ⟨T, hT⟩ : ∃ T, ticks (exec C ms).trace = T + 1 := ⟨ticks (exec C ms).trace - 1, by omega⟩
  rw [hT] at c4 h3
  rw [Nat.add_sub_cancel] at h3
  have c5 : ((k : Int) + 1) * (T + 1) ≤ (k + 1) * (3 * C.dag.nodes.length + 3) + A + k * B := by exact_mod_cast c4
  have c6 : (((k : Int) + 1) * (T + 1)) * P.period ≤
      ((k + 1) * (3 * C.dag.nodes.length + 3) + A + k * B) * P.period :=
    Int.mul_le_mul_of_nonneg_right c5 (by omega)
  have c7 : (k : Int) * (B * P.period) ≤ k * (L + chain.length * ε) :=
    Int.mul_le_mul_of_nonneg_left s2 (by omega)
  have c8 : (chain.length : Int) * ε ≤ C.dag.nodes.length * ε := Int.mul_le_mul_of_nonneg_right (by omega) hε0
  have c9 : (k : Int) * (chain.length * ε) ≤ k * (C.dag.nodes.length * ε) :=
    Int.mul_le_mul_of_nonneg_left c8 (by omega)
  have c10 : ((k : Int) + 1) * (E - P.t0) ≤ (k + 1) * (T * P.period + ε) :=
    Int.mul_le_mul_of_nonneg_left (by omega) (by omega)
  push_cast
  nlinarith

/-- **C122**.  At most twice as long as necessary.  If no two tasks have a resource in common: let `T` be a time within
which the jobs could be done on `k` threads, i.e. `k * T` is at least the time of all jobs, and `T` is at least that of
any jobs of tasks ordered one after the other.  Then `run( period )` takes at most `2 * T`, and for each task three
periods and `ε`. -/
theorem C122_twice (hwf : C.dag.WF) (hc : C.threadCount ≠ 0)
    (hres : ∀ a b, a ≠ b → ∀ r ∈ C.resources a, r ∉ C.resources b) {ms : List Move}
    (hf : (exec C ms).phase = .finished)
    {P : Pace} {ε : Int} {clock : Nat → Int} (hε : ∀ k, (P.late k + P.len k : Int) ≤ ε) (hp : ε ≤ P.period)
    (ht : Timed P (exec C ms).trace clock) {D : Node → Int} (hD : Spans clock (exec C ms).trace D)
    (h0 : ∀ n, 0 ≤ D n) {T : Int} (hT1 : (C.dag.nodes.map D).sum ≤ C.threadCount * T)
    (hT2 : ∀ chain : List Node, chain.IsChain (Relation.TransGen (AfterEdge C.dag)) → (chain.map D).sum ≤ T) :
    P.ends (ticks (exec C ms).trace - 1) ≤
      P.t0 + 2 * T + (3 * C.dag.nodes.length + 2) * P.period + (C.dag.nodes.length + 1) * ε := by
  obtain ⟨chain, c1, _, _, c4⟩ := C122_parallel hwf hc hf hε hp ht hD h0
  have h1 := hT2 chain (c1.imp (by
    rintro x y ⟨z, hz, h | ⟨h, r, h1, h2⟩⟩
    · exact Relation.TransGen.tail' hz h
    · exact absurd h2 (hres z y h r h1)))
  have hT0 : 0 ≤ T := by simpa using hT2 [] .nil
  obtain ⟨k, hk⟩ : ∃ k, C.threadCount = k + 1 := ⟨C.threadCount - 1, by omega⟩
  rw [hk] at c4 hT1
  push_cast at c4 hT1
  have h2 : (k : Int) * (chain.map D).sum ≤ k * T := Int.mul_le_mul_of_nonneg_left h1 (by omega)
  have h3 : ((k : Int) + 1) * (P.ends (ticks (exec C ms).trace - 1) - P.t0) ≤
      (k + 1) * (2 * T + ((3 * C.dag.nodes.length + 2) * P.period + (C.dag.nodes.length + 1) * ε)) := by
    nlinarith
  have h4 := Int.le_of_mul_le_mul_left h3 (by omega)
  omega

/-! ### Examples -/

/-- the jobs take 90, 10 and 60, ticks come every 10 -/
def Ex.freeTimes (n : Node) : Int := if n = 1 then 90 else if n = 2 then 10 else if n = 3 then 60 else 0

theorem Ex.free_spans : Spans (Ex.early Ex.tens (exec Ex.free2 Ex.freeMoves).trace) (exec Ex.free2 Ex.freeMoves).trace
    Ex.freeTimes := spans_of_list (by decide +kernel)

theorem Ex.freeTimes_nonneg (n : Node) : 0 ≤ Ex.freeTimes n := by unfold Ex.freeTimes; split_ifs <;> decide

/-- two threads: 90 suffices for the jobs; `run` returns after 120 -/
example : Ex.tens.ends (ticks (exec Ex.free2 Ex.freeMoves).trace - 1) = 120 ∧
    Ex.tens.ends (ticks (exec Ex.free2 Ex.freeMoves).trace - 1) ≤ 0 + 2 * 90 + (3 * 3 + 2) * 10 + (3 + 1) * 0 := by
  refine ⟨by decide +kernel, C122_twice (C := Ex.free2) (ε := 0) (P := Ex.tens) (T := 90) (Ex.par_wf 2) (by decide)
    (fun a b _ r hr => (by cases hr)) (by decide +kernel) (fun _ => by simp [Ex.tens]) (by decide)
    (Ex.early_timed _ _) Ex.free_spans Ex.freeTimes_nonneg (by decide) ?_⟩
  have hne : ∀ a b, ¬ Relation.TransGen (AfterEdge Ex.free2.dag) a b := by
    intro a b h
    obtain ⟨c, h, _⟩ := Relation.TransGen.head'_iff.1 h
    cases h
  intro chain hc
  match chain, hc with
  | [], _ => simp
  | [n], _ =>
    simp only [List.map_cons, List.map_nil, List.sum_cons, List.sum_nil]
    unfold Ex.freeTimes
    split_ifs <;> decide
  | a :: b :: l, hc => exact absurd (List.isChain_cons_cons.1 hc).1 (hne a b)

example : ∃ chain : List Node, chain.Nodup ∧ 2 * (Ex.tens.ends (ticks (exec Ex.free2 Ex.freeMoves).trace - 1) - 0) ≤
    (60 + 10 + 90) + (2 - 1) * (chain.map Ex.freeTimes).sum + 2 * ((3 * 3 + 2) * 10 + (3 + 1) * 0) := by
  obtain ⟨chain, -, h1, -, h2⟩ := C122_parallel (C := Ex.free2) (ε := 0) (P := Ex.tens) (ms := Ex.freeMoves)
    (Ex.par_wf 2) (by decide) (by decide +kernel) (fun _ => by simp [Ex.tens]) (by decide) (Ex.early_timed _ _)
    Ex.free_spans Ex.freeTimes_nonneg
  exact ⟨chain, h1, h2⟩

end Joque
