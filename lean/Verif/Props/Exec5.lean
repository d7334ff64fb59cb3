import Verif.Props.Exec4
import Verif.Proof.Origin

/-! # Properties of every execution: visitor protocol, throwing jobs -/

namespace Joque

/-! ## C15 -/

/-- **C15**, part 1.  The history of an execution that was resumed starts with
`after_node_enque` for every node, in the order of the dag, exactly once; then come the cycle
report and the invalidation answers; after those there is no further `after_node_enque`,
`on_detected_cycle`, `after_job_is_inval` or `after_dep_inval`.  No node is asked twice, each
answer reported is the job's answer; and if anything happened afterwards (any tick, any run), then
every node was asked exactly once before it.  Only a callback that throws, or memory running out, can cut this short. -/
theorem C15_prologue (C : Cfg) (hwf : C.dag.WF) (ms : List Move) :
    (exec C ms).trace = [] ∨ ∃ (asked : List (Node × InvalResult)) (mid rest : List Event),
      ((exec C ms).trace = .resumed :: C.dag.nodes.map Event.nodeEnque ++
        asked.map (fun p =>
          Event.jobInval p.1 (if p.2.invalidated then .invalid else .valid) p.2.log) ++ mid ++ rest ∨
        ((∃ f, .fault f ∈ ms) ∧ rest = [] ∧
          (exec C ms).trace <+: .resumed :: C.dag.nodes.map Event.nodeEnque ++
            asked.map (fun p =>
              Event.jobInval p.1 (if p.2.invalidated then .invalid else .valid) p.2.log) ++
            mid)) ∧
      (asked.map Prod.fst).Nodup ∧ (∀ p ∈ asked, p.1 ∈ C.dag.nodes ∧ C.ask p.1 = .answer p.2) ∧
      (∀ e ∈ mid, (∃ c, e = .detectedCycle c) ∨ ∃ n m, e = .depInval n m) ∧
      (∀ e ∈ rest, (∀ n, e ≠ .nodeEnque n) ∧ (∀ c, e ≠ .detectedCycle c) ∧
        (∀ n i l, e ≠ .jobInval n i l) ∧ (∀ n m, e ≠ .depInval n m)) ∧
      (rest ≠ [] → (asked.map Prod.fst).Perm C.dag.nodes ∧ ¬ Cyclic C.dag) := by
  have hT := tinv_exec hwf ms
  have htp := toProcessOf_spec C.dag
  have hperm := toProcessOf_perm hwf
  have hcases : (exec C ms).trace = [] ∨ ∃ rest : List Event, (∀ e ∈ rest, proEv e = false) ∧
      ((exec C ms).trace = (prologue C St.init).trace ++ rest ∨
        ((∃ f, .fault f ∈ ms) ∧ rest = [] ∧
          (exec C ms).trace <+: (prologue C St.init).trace)) := by
    rcases hT.pro with ⟨_, h⟩ | ⟨rest, h, hr⟩ | ⟨_, _, h⟩
    · exact .inl h
    · exact .inr ⟨rest, hr, .inl h⟩
    · rcases pro_full hwf ms with hk | h' | h'
      · exact .inr ⟨[], by simp, .inr ⟨hk, rfl, h⟩⟩
      · exact .inl h'
      · exact .inr ⟨[], by simp, .inl (by rw [List.append_nil]; exact h.eq_of_length_le h'.length_le)⟩
  rcases hcases with h | ⟨rest, hr, h⟩
  · exact .inl h
  right
  have hrest : ∀ e ∈ rest, (∀ n, e ≠ .nodeEnque n) ∧ (∀ c, e ≠ .detectedCycle c) ∧
        (∀ n i l, e ≠ .jobInval n i l) ∧ (∀ n m, e ≠ .depInval n m) := by
    intro e he
    have := hr e he
    cases e <;> simp_all [proEv]
  -- answers of a list of nodes
  have hans : ∀ l : List Node, (∀ n ∈ l, Answers C.hasJob C.ask n) →
      ∃ asked : List (Node × InvalResult), asked.map Prod.fst = l ∧
        (∀ p ∈ asked, C.ask p.1 = .answer p.2) ∧
        asked.map (fun p =>
          Event.jobInval p.1 (if p.2.invalidated then .invalid else .valid) p.2.log) =
        l.map (fun n => Event.jobInval n (ansOf C.ask n) (logOf C.ask n)) := by
    intro l hl
    induction l with
    | nil => exact ⟨[], rfl, by simp, rfl⟩
    | cons n l ih =>
      obtain ⟨asked, h1, h2, h3⟩ := ih (fun m hm => hl m (by simp [hm]))
      obtain ⟨_, a, ha⟩ := hl n (by simp)
      refine ⟨(n, a) :: asked, by simp [h1], ?_, ?_⟩
      · intro p hp
        rcases List.mem_cons.1 hp with rfl | hp
        · exact ha
        · exact h2 p hp
      · simp [h3, ansOf, logOf, ha]
  rcases prologue_spec hwf with ⟨hc, c, _, hp, ht⟩ | ⟨hnc, hall, _, evs, ht, h4, _⟩ |
      ⟨hnc, pre, n, post, h1, h2, h3, ht, h4⟩
  · refine ⟨[], [.detectedCycle c], rest, ?_, by simp, by simp, by simp, hrest, ?_⟩
    · rw [ht] at h; simpa using h
    · intro hne
      replace h := h.resolve_right (fun h => hne h.2.1)
      obtain ⟨_, hs⟩ := stuck_exec hp (.inr ⟨_, rfl⟩) ms
      exfalso; apply hne
      rcases hs with hs | ⟨hs, _⟩ | ⟨hs, _⟩ | ⟨_, hs, _⟩
      · rw [hs] at h
        have := congrArg List.length h
        rw [ht] at this; simp [St.init] at this
      · rw [hs] at h
        have := congrArg List.length h
        rw [ht] at this; simp at this
      · rw [hs] at h; simpa using h
      · have := hs.length_le
        rw [h, List.length_append] at this
        exact List.length_eq_zero_iff.1 (by omega)
  · obtain ⟨asked, a1, a2, a3⟩ := hans (toProcessOf C.dag) (fun n hn => hall n ((htp.2 n).1 hn))
    refine ⟨asked, evs, rest, ?_, ?_, ?_, ?_, hrest, ?_⟩
    · rw [a3]; rw [ht] at h; simpa using h
    · rw [a1]; exact hperm.nodup_iff.2 hwf.nodup
    · intro p hp
      refine ⟨(htp.2 _).1 ?_, a2 p hp⟩
      rw [← a1]; exact List.mem_map_of_mem hp
    · intro e he
      obtain ⟨n, m, rfl, _⟩ := h4 e he
      exact .inr ⟨n, m, rfl⟩
    · intro _; rw [a1]; exact ⟨hperm, hnc⟩
  · obtain ⟨asked, a1, a2, a3⟩ := hans pre h2
    refine ⟨asked, [], rest, ?_, ?_, ?_, by simp, hrest, ?_⟩
    · rw [a3]; rw [ht] at h; simpa using h
    · rw [a1]
      have := hperm.nodup_iff.2 hwf.nodup
      rw [h1] at this
      exact (List.nodup_append.1 this).1
    · intro p hp
      refine ⟨(htp.2 _).1 ?_, a2 p hp⟩
      rw [h1]
      exact List.mem_append_left _ (by rw [← a1]; exact List.mem_map_of_mem hp)
    · intro hne
      replace h := h.resolve_right (fun h => hne h.2.1)
      exfalso; apply hne
      have hstuck : StuckSt C (prologue C St.init).phase (∃ f, .fault f ∈ ms) (exec C ms) := by
        rcases h4 with ⟨_, hp⟩ | ⟨_, w, _, hp⟩
        · rw [hp]; exact stuck_exec hp (.inl rfl) ms
        · rw [hp]; exact stuck_exec hp (.inr ⟨_, rfl⟩) ms
      obtain ⟨_, hs⟩ := hstuck
      rcases hs with hs | ⟨hs, _⟩ | ⟨hs, _⟩ | ⟨_, hs, _⟩
      · rw [hs] at h
        have := congrArg List.length h
        rw [ht] at this; simp [St.init] at this
      · rw [hs] at h
        have := congrArg List.length h
        rw [ht] at this; simp at this
      · rw [hs] at h; simpa using h
      · have := hs.length_le
        rw [h, List.length_append] at this
        exact List.length_eq_zero_iff.1 (by omega)

/-- **C15**, part 2.  What happens to one node, in order, at every moment: `before_run`, then
either `after_run` at once, or (launch,) job begin, job end, `on_run_log`, `after_run`; each at most
once.  `on_run_log` happens exactly for jobs that ran. -/
theorem C15_node_history (C : Cfg) (hwf : C.dag.WF) (ms : List Move) (n : Node) :
    life n (exec C ms).trace <+: [.before, .after] ∨
    (C.threadCount ≠ 0 ∧
      life n (exec C ms).trace <+: [.before, .launch, .begin false, .end, .log, .after]) ∨
    (C.threadCount = 0 ∧
      life n (exec C ms).trace <+: [.before, .begin true, .end, .log, .after]) :=
  life_shape (inv_exec hwf ms) (tinv_exec hwf ms) n

/-- **C15**, part 3.  At a successful end the history of every node is complete, and says whether
the job ran. -/
theorem C15_complete (C : Cfg) (hwf : C.dag.WF) (ms : List Move)
    (hfin : (exec C ms).phase = .finished) (n : Node) (hn : n ∈ C.dag.nodes) :
    ∃ r ∈ (exec C ms).erec.runs, r.node = n ∧
      life n (exec C ms).trace =
        if r.status = .skip ∨ r.status = .depf then [.before, .after]
        else if C.threadCount = 0 then [.before, .begin true, .end, .log, .after]
        else [.before, .launch, .begin false, .end, .log, .after] := by
  obtain ⟨hI, hT⟩ := both_exec hwf ms
  have hperm := (C02_one_record C hwf ms hfin).1
  obtain ⟨r, hr, rfl⟩ := List.mem_map.1 (hperm.mem_iff.2 hn)
  refine ⟨r, hr, rfl, ?_⟩
  rw [hT.lifeRec r hr]
  cases r.status <;> simp [recLife]

/-- **C15**, part 4.  `after_execution` is called only when every node has its record, with the
final record; nothing is observed after it, so it is called at most once; an execution that ends
with an exception (other than that of a callback, maybe of this one, or of memory running out) never calls it; a successful
one always does. -/
theorem C15_after_execution (C : Cfg) (hwf : C.dag.WF) (ms : List Move) :
    (∀ pre er post, (exec C ms).trace = pre ++ .afterExecution er :: post →
      post = [] ∧ (∀ er', .afterExecution er' ∉ pre) ∧ (∀ n ∈ C.dag.nodes, Recorded pre n) ∧
      er.runs = recsOf pre ∧ er.totalCount = C.dag.nodes.length ∧
      ∀ e, (exec C ms).phase = .threw e → ∃ f, .fault f ∈ ms ∧ e = f.exc) ∧
    ((exec C ms).phase = .finished →
      ∃ pre, (exec C ms).trace = pre ++ [.afterExecution (exec C ms).erec]) := by
  obtain ⟨hI, hT⟩ := both_exec hwf ms
  have key : ∀ pre er post, (exec C ms).trace = pre ++ .afterExecution er :: post → post = [] := by
    intro pre er post h
    rcases List.eq_nil_or_concat post with rfl | ⟨post', x, rfl⟩
    · rfl
    · exfalso
      have := (hT.always (pre ++ .afterExecution er :: post') x [] (by rw [h]; simp)).1 er
      exact this (by simp)
  constructor
  · intro pre er post h
    obtain ⟨g1, g2, g3⟩ := hT.always pre _ post h
    refine ⟨key pre er post h, g1, g3, g2.runs, g2.total, ?_⟩
    intro e he
    have := (hT.afterExec er (by rw [h]; simp)).1
    rw [he] at this; simp [visPhases] at this
    obtain ⟨f, h1, h2⟩ := fault_only ms this (.inr he)
    exact ⟨f, h1, h2.symm⟩
  · intro hf
    obtain ⟨pre, post, h⟩ := List.append_of_mem (hT.isFinished hf)
    have := key _ _ _ h
    subst this
    exact ⟨pre, h⟩

example : (exec (Ex.cfg 2) Ex.done2).phase = .finished ∧
    life 1 (exec (Ex.cfg 2) Ex.done2).trace =
      [.before, .launch, .begin false, .end, .log, .after] ∧
    life 5 (exec (Ex.cfg 2) Ex.done2).trace = [.before, .after] ∧
    life 1 (exec (Ex.cfg 0) Ex.done0).trace = [.before, .begin true, .end, .log, .after] :=
  ⟨Ex.fin2, by decide +kernel, by decide +kernel, by decide +kernel⟩

/-! ## C16 -/

/-- The schedule: 1 and 3 are executing; 1 ends and is collected while 3 is still executing; then 3
ends and is collected. -/
def Ex.swapMoves : List Move :=
  List.replicate 17 .ctl ++ [.begin 1, .begin 3, .finish 1] ++ List.replicate 6 .ctl ++
    [.finish 3] ++ List.replicate 6 .ctl

/-- **C16** is false for `thread_count ≥ 2`: `after_run` gets the record of task 3 together with
the node of task 1. -/
theorem C16_counterexample : ∃ er r, r.node = 3 ∧
    .afterRun er r 1 ∈ (exec (Ex.par 3) Ex.swapMoves).trace := by
  have : ∃ e ∈ (exec (Ex.par 3) Ex.swapMoves).trace, (match e with
      | .afterRun _ r n => decide (r.node = 3 ∧ n = 1)
      | _ => false) = true := by decide +kernel
  obtain ⟨e, he, h⟩ := this
  split at h
  · rename_i er r n
    simp at h
    obtain ⟨h1, rfl⟩ := h
    exact ⟨er, r, h1, he⟩
  · cases h

/-- **C16** for `thread_count ≤ 1`.  (Full statement: without the hypothesis on `thread_count`;
false, see `C16_counterexample`.) -/
theorem C16_partial (C : Cfg) (hwf : C.dag.WF) (htc : C.threadCount ≤ 1) (ms : List Move)
    (er : ExecRecord) (r : RunRecord) (n : Node) (h : .afterRun er r n ∈ (exec C ms).trace) :
    n = r.node := by
  obtain ⟨pre, post, htr⟩ := List.append_of_mem h
  exact ((tinv_exec hwf ms).always pre _ post htr).2.2 htc

example : (Ex.cfg 1).threadCount ≤ 1 ∧
    ∃ e ∈ (exec (Ex.cfg 1) Ex.done1).trace, ∃ er r, e = .afterRun er r 3 := by
  refine ⟨by decide, ?_⟩
  have : ∃ e ∈ (exec (Ex.cfg 1) Ex.done1).trace, (match e with
      | .afterRun _ _ n => decide (n = 3)
      | _ => false) = true := by decide +kernel
  obtain ⟨e, he, h⟩ := this
  refine ⟨e, he, ?_⟩
  split at h
  · rename_i er r n
    simp at h; subst h; exact ⟨er, r, rfl⟩
  · cases h

end Joque
