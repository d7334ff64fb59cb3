import Verif.Props.Exec1

/-! # Properties of every execution: statuses and records -/

namespace Joque

/-- A record reports failure. -/
def Bad (r : RunRecord) : Prop := r.status = .fail ∨ r.status = .depf

theorem badStatus_iff {r : RunRecord} : badStatus r.status = true ↔ Bad r := by
  cases h : r.status <;> simp [badStatus, Bad, h]

theorem rec_unique {C : Cfg} {s : St} (hI : Inv C s) {r1 r2 : RunRecord}
    (h1 : r1 ∈ s.erec.runs) (h2 : r2 ∈ s.erec.runs) (h : r1.node = r2.node) : r1 = r2 := by
  have hnd := hI.nodup
  unfold allNodes at hnd
  rw [List.append_assoc, List.nodup_append, List.nodup_append] at hnd
  exact List.inj_on_of_nodup_map hnd.2.1.1 h1 h2 h

theorem began_of_status {C : Cfg} {s : St} (hT : TInv C s) {r : RunRecord}
    (h1 : r ∈ s.erec.runs) :
    (JobBegan s.trace r.node ↔ r.status = .ok ∨ r.status = .fail) ∧
    (JobBegan s.trace r.node → JobEnded s.trace r.node) := by
  rw [begin_mem_life, end_mem_life, hT.lifeRec r h1]
  by_cases h0 : C.threadCount = 0 <;> cases r.status <;> simp [recLife, h0]

/-- **C05**.  If `A` requires `B` (and is therefore ordered after it) and `B`'s record is FAIL or
DEPF, the job of `A` never begins, and the record of `A`, if it has one, is DEPF. -/
theorem C05_failed_dependency (C : Cfg) (hwf : C.dag.WF) (ms : List Move) (A B : Node)
    (hreq : HasEdge C.dag .requires A B) (haft : AfterEdge C.dag A B) (rB : RunRecord)
    (hB : rB ∈ recsOf (exec C ms).trace) (hBn : rB.node = B) (hbad : Bad rB) :
    ¬ JobBegan (exec C ms).trace A ∧
    ∀ rA ∈ recsOf (exec C ms).trace, rA.node = A → rA.status = .depf := by
  obtain ⟨hI, hT⟩ := both_exec hwf ms
  rw [hT.recs] at hB ⊢
  have hf : (exec C ms).flags.failed B = true :=
    (hI.failedIff B).2 ⟨rB, hB, hBn, badStatus_iff.2 hbad⟩
  constructor
  · rintro ⟨b, hb⟩
    obtain ⟨pre, post, htr⟩ := List.append_of_mem hb
    obtain ⟨r, hr, hrn, hst⟩ := (hT.always pre _ post htr).2.2.2.2.2.2 B hreq haft
    have hr' : r ∈ (exec C ms).erec.runs := by
      rw [← hT.recs, htr, recsOf_append]; exact List.mem_append_left _ hr
    have := rec_unique hI hr' hB (by rw [hrn, hBn])
    subst this
    rcases hbad with h | h <;> rw [h] at hst <;> simp at hst
  · rintro rA hrA rfl
    by_contra hne
    have := (hI.recs rA hrA).noFail hne B hreq haft
    rw [hf] at this; cases this

/-- **C05**.  In a completed execution everything that transitively requires a failed task is
DEPF and its job was never started.  (`REQUIRES` edges are also `AFTER` edges in every dag built
from task sets, see `C23`.) -/
theorem C05_transitive (C : Cfg) (hwf : C.dag.WF)
    (hra : ∀ a b, HasEdge C.dag .requires a b → AfterEdge C.dag a b) (ms : List Move)
    (hfin : (exec C ms).phase = .finished) (A B : Node)
    (hAB : Relation.TransGen (HasEdge C.dag .requires) A B) (rB : RunRecord)
    (hB : rB ∈ (exec C ms).erec.runs) (hBn : rB.node = B) (hbad : Bad rB) :
    (∃ rA ∈ (exec C ms).erec.runs, rA.node = A ∧ rA.status = .depf) ∧
    ¬ JobBegan (exec C ms).trace A := by
  obtain ⟨hI, hT⟩ := both_exec hwf ms
  have hperm := (C02_one_record C hwf ms hfin).1
  have hex : ∀ n ∈ C.dag.nodes, ∃ r ∈ (exec C ms).erec.runs, r.node = n := by
    intro n hn
    obtain ⟨r, hr, h⟩ := List.mem_map.1 (hperm.mem_iff.2 hn)
    exact ⟨r, hr, h⟩
  induction hAB using Relation.TransGen.head_induction_on with
  | @single A h =>
    obtain ⟨rA, hrA, hn⟩ := hex A (hwf.closed _ h).1
    have := C05_failed_dependency C hwf ms A B h (hra _ _ h) rB (by rw [hT.recs]; exact hB) hBn hbad
    exact ⟨⟨rA, hrA, hn, this.2 rA (by rw [hT.recs]; exact hrA) hn⟩, this.1⟩
  | @head A M h _ ih =>
    obtain ⟨⟨rM, hrM, hMn, hst⟩, _⟩ := ih
    obtain ⟨rA, hrA, hn⟩ := hex A (hwf.closed _ h).1
    have := C05_failed_dependency C hwf ms A M h (hra _ _ h) rM (by rw [hT.recs]; exact hrM) hMn
      (.inr hst)
    exact ⟨⟨rA, hrA, hn, this.2 rA (by rw [hT.recs]; exact hrA) hn⟩, this.1⟩

/-- **C05**, converse: DEPF is reported only if some required task is FAIL or DEPF. -/
theorem C05_only_if (C : Cfg) (hwf : C.dag.WF) (ms : List Move) (rA : RunRecord)
    (hA : rA ∈ recsOf (exec C ms).trace) (hst : rA.status = .depf) :
    ∃ rB ∈ recsOf (exec C ms).trace, HasEdge C.dag .requires rA.node rB.node ∧ Bad rB := by
  obtain ⟨hI, hT⟩ := both_exec hwf ms
  rw [hT.recs] at hA ⊢
  obtain ⟨_, _, m, hm, hf⟩ := (hI.recs rA hA).depf hst
  obtain ⟨rB, hB, hn, hb⟩ := (hI.failedIff m).1 hf
  exact ⟨rB, hB, by rw [hn]; exact hm, badStatus_iff.1 hb⟩

/-- task 3 requires the failing task 1 -/
example : HasEdge (Ex.cfg 2).dag .requires 3 1 ∧ AfterEdge (Ex.cfg 2).dag 3 1 ∧
    (∃ r ∈ recsOf (exec (Ex.cfg 2) Ex.done2).trace, r.node = 1 ∧ r.status = .fail) ∧
    (∃ r ∈ recsOf (exec (Ex.cfg 2) Ex.done2).trace, r.node = 3 ∧ r.status = .depf) :=
  ⟨by show _ ∈ Ex.dag.edges; decide, by show _ ∈ Ex.dag.edges; decide,
   by decide +kernel, by decide +kernel⟩

/-- **C06**.  What each status means.  Here "the job ran" is observed in the history, and what it
did is given by `C.outcome`. -/
theorem C06_status_meaning (C : Cfg) (hwf : C.dag.WF) (ms : List Move) (r : RunRecord)
    (hr : r ∈ recsOf (exec C ms).trace) :
    match r.status with
    | .ok => JobEnded (exec C ms).trace r.node ∧ r.retcode = 0 ∧
        ∃ rr, C.outcome r.node = .ret rr ∧ rr.retcode = some 0 ∧ r.output = rr.output
    | .fail => JobEnded (exec C ms).trace r.node ∧ r.retcode ≠ 0 ∧
        ((∃ rr, C.outcome r.node = .ret rr ∧ rr.retcode = some r.retcode ∧
            r.output = rr.output) ∨
         (r.retcode = 1 ∧ ∃ w, C.outcome r.node = .throwsStd w ∧
            r.output = [⟨.error, "job run failed due to exception: ".toList ++ w⟩]) ∨
         (r.retcode = 1 ∧ C.outcome r.node = .throwsOther ∧
            r.output = [⟨.error, "job run failed due to an unknown exception".toList⟩]))
    | .skip => ¬ JobBegan (exec C ms).trace r.node ∧ r.retcode = 0 ∧ r.output = [] ∧
        ¬ Stale C.dag C.ask r.node ∧
        (∀ r2 ∈ recsOf (exec C ms).trace, HasEdge C.dag .requires r.node r2.node →
          AfterEdge C.dag r.node r2.node → ¬ Bad r2)
    | .depf => ¬ JobBegan (exec C ms).trace r.node ∧ r.retcode = 0 ∧ r.output = [] := by
  obtain ⟨hI, hT⟩ := both_exec hwf ms
  rw [hT.recs] at hr ⊢
  have hR := hI.recs r hr
  obtain ⟨hb, he⟩ := began_of_status hT hr
  have hn : r.node ∈ C.dag.nodes := by
    apply hI.inNodes; unfold allNodes; simp only [List.mem_append]
    exact .inl (.inr (List.mem_map_of_mem hr))
  cases hst : r.status with
  | ok =>
    obtain ⟨_, h2, h3, h4⟩ := hR.ran (.inl hst)
    have h0 : r.retcode = 0 := by
      by_contra hc; have := h4.2 hc; rw [hst] at this; cases this
    refine ⟨he (hb.2 (.inl hst)), h0, ?_⟩
    rw [h0] at h2
    cases ho : C.outcome r.node with
    | ret rr => rw [ho] at h2 h3; exact ⟨rr, rfl, h2, h3⟩
    | throwsStd w => rw [ho] at h2; simp [asyncLambda] at h2
    | throwsOther => rw [ho] at h2; simp [asyncLambda] at h2
  | fail =>
    obtain ⟨_, h2, h3, h4⟩ := hR.ran (.inr hst)
    refine ⟨he (hb.2 (.inr hst)), h4.1 hst, ?_⟩
    cases ho : C.outcome r.node with
    | ret rr => rw [ho] at h2 h3; exact .inl ⟨rr, rfl, h2, h3⟩
    | throwsStd w =>
      rw [ho] at h2 h3; simp [asyncLambda] at h2
      exact .inr (.inl ⟨h2.symm, w, rfl, h3⟩)
    | throwsOther =>
      rw [ho] at h2 h3; simp [asyncLambda] at h2
      exact .inr (.inr ⟨h2.symm, rfl, h3⟩)
  | skip =>
    obtain ⟨h1, h2, h3⟩ := hR.skip hst
    refine ⟨fun h => by have := hb.1 h; rw [hst] at this; simp at this, h1, h2, ?_, ?_⟩
    · intro hs
      rcases hI.inval with h | h
      · rw [h] at h3; cases h3
      · rw [(h _ hn).1 hs] at h3; cases h3
    · intro r2 hr2 hreq haft hbad
      have := hR.noFail (by rw [hst]; simp) r2.node hreq haft
      rw [(hI.failedIff r2.node).2 ⟨r2, hr2, rfl, badStatus_iff.2 hbad⟩] at this
      cases this
  | depf =>
    obtain ⟨h1, h2, _⟩ := hR.depf hst
    exact ⟨fun h => by have := hb.1 h; rw [hst] at this; simp at this, h1, h2⟩

/-- **C06**.  A record has a non-zero code iff it is FAIL. -/
theorem C06_retcode (C : Cfg) (hwf : C.dag.WF) (ms : List Move) (r : RunRecord)
    (hr : r ∈ recsOf (exec C ms).trace) : r.retcode ≠ 0 ↔ r.status = .fail := by
  have := C06_status_meaning C hwf ms r hr
  cases hst : r.status <;> rw [hst] at this <;> simp at this ⊢
  · exact this.2.1
  · exact this.2.1
  · exact this.2.1
  · exact this.2.1

/-- all four statuses occur in one execution -/
example : ∀ st : Status, ∃ r ∈ recsOf (exec (Ex.cfg 2) Ex.done2).trace, r.status = st := by
  intro st; cases st <;> decide +kernel

/-- **C08**.  A recorded task whose dependencies did not fail was executed iff it is out of date:
its own job says so, or one of the tasks it is transitively invalidated by does. -/
theorem C08_executed_iff_stale (C : Cfg) (hwf : C.dag.WF) (ms : List Move) (r : RunRecord)
    (hr : r ∈ recsOf (exec C ms).trace) (hst : r.status ≠ .depf) :
    JobBegan (exec C ms).trace r.node ↔
      ∃ m, Relation.ReflTransGen (HasEdge C.dag .invalidatedBy) r.node m ∧ SelfStale C.ask m := by
  obtain ⟨hI, hT⟩ := both_exec hwf ms
  constructor
  · rintro ⟨b, hb⟩
    obtain ⟨pre, post, htr⟩ := List.append_of_mem hb
    exact (hT.always pre _ post htr).2.2.2.2.2.1
  · intro hs
    have h6 := C06_status_meaning C hwf ms r hr
    rw [hT.recs] at hr
    rw [(began_of_status hT hr).1]
    cases h : r.status with
    | ok => simp
    | fail => simp
    | skip => rw [h] at h6; exact absurd hs h6.2.2.2.1
    | depf => exact absurd h hst

/-- **C08**.  A skipped task is not invalidated by any task that was executed. -/
theorem C08_not_skipped (C : Cfg) (hwf : C.dag.WF) (ms : List Move) (r : RunRecord)
    (hr : r ∈ recsOf (exec C ms).trace) (hst : r.status = .skip) (m : Node)
    (hm : Relation.TransGen (HasEdge C.dag .invalidatedBy) r.node m) :
    ¬ JobBegan (exec C ms).trace m := by
  have hT := tinv_exec hwf ms
  have h6 := C06_status_meaning C hwf ms r hr
  rw [hst] at h6
  rintro ⟨b, hb⟩
  obtain ⟨pre, post, htr⟩ := List.append_of_mem hb
  obtain ⟨k, hk1, hk2⟩ : Stale C.dag C.ask m := (hT.always pre _ post htr).2.2.2.2.2.1
  exact h6.2.2.2.1 ⟨k, hm.to_reflTransGen.trans hk1, hk2⟩

/-- **C08**, the invalidation pass on its own: whatever the graph (also with cyclic
INVALIDATED_BY edges) and the order of `to_process`, it terminates and marks exactly the stale
nodes, and every `after_dep_inval(n, m)` is justified by an edge to a stale `m`. -/
theorem C08_pass (g : Dag) (hwf : g.WF) (hasJob : Node → Bool) (ask : Node → InvalOut)
    (tp : List Node) (inval0 : Node → Inval) (htp : ∀ n, n ∈ tp ↔ n ∈ g.nodes)
    (hjob : ∀ n ∈ g.nodes, hasJob n = true ∧ ∃ a, ask n = .answer a) :
    ∃ s, propagateInvalidation g hasJob ask tp inval0 = .ok s ∧
      (∀ n ∈ g.nodes, (s.inval n = .invalid ↔ Stale g ask n) ∧
        (s.inval n = .valid ↔ ¬ Stale g ask n)) ∧
      (∀ n m, .depInval n m ∈ s.events → HasEdge g .invalidatedBy n m ∧ Stale g ask m ∧
        ¬ SelfStale ask n) ∧
      (∀ n ∈ g.nodes, Stale g ask n → ¬ SelfStale ask n → ∃ m, .depInval n m ∈ s.events) := by
  obtain ⟨s, evs, h1, h2, h3, h4, h5, h6⟩ := propagate_ok hwf (hasJob := hasJob) (ask := ask)
    (inval0 := inval0) htp hjob
  refine ⟨s, h1, ?_, ?_, ?_⟩
  · intro n hn
    by_cases hs : Stale g ask n
    · simp [h2 n hn hs, hs]
    · simp [h3 n hn hs, hs]
  · intro n m hm
    rw [h4] at hm
    rcases List.mem_append.1 hm with hm | hm
    · simp at hm
    · obtain ⟨n', m', heq, h⟩ := h5 _ hm
      injection heq with e1 e2; subst e1; subst e2; exact h
  · intro n hn hs hns
    obtain ⟨m, hm⟩ := h6 n hn hs hns
    exact ⟨m, by rw [h4]; exact List.mem_append_right _ hm⟩

/-- cyclic invalidation: 1 and 2 invalidate each other, 2 says it is stale, 3 is fresh -/
example : ∃ s, propagateInvalidation
    { nodes := [3, 2, 1], edges := [⟨1, 2, .invalidatedBy⟩, ⟨2, 1, .invalidatedBy⟩],
      name := fun _ => [], task := fun n => n }
    (fun _ => true) (fun n => .answer { invalidated := n = 2, log := [] }) [1, 2, 3]
    (fun _ => .unknown) = .ok s ∧ s.inval 1 = .invalid ∧ s.inval 2 = .invalid ∧
    s.inval 3 = .valid := ⟨_, rfl, rfl, rfl, rfl⟩

/-- **C13**.  At every callback that carries the execution record, and in every reachable state,
the counters count the records, and sum to their number; at the end they sum to
`total_count`. -/
theorem C13_stats (C : Cfg) (hwf : C.dag.WF) (ms : List Move) (er : ExecRecord)
    (her : er = (exec C ms).erec ∨ .onTick er ∈ (exec C ms).trace ∨
      (∃ n, .beforeRun er n ∈ (exec C ms).trace) ∨
      (∃ r n, .afterRun er r n ∈ (exec C ms).trace) ∨ .afterExecution er ∈ (exec C ms).trace) :
    (∀ st, er.stats.get st = er.runs.countP (fun r => r.status = st)) ∧
    er.stats.ok + er.stats.skip + er.stats.depf + er.stats.fail = er.runs.length := by
  obtain ⟨hI, hT⟩ := both_exec hwf ms
  have key : (∀ st, er.stats.get st = er.runs.countP (fun r => r.status = st)) →
      er.stats.ok + er.stats.skip + er.stats.depf + er.stats.fail = er.runs.length := by
    intro h
    have h1 := h .ok; have h2 := h .skip; have h3 := h .depf; have h4 := h .fail
    simp only [Stats.get] at h1 h2 h3 h4
    rw [h1, h2, h3, h4]
    clear h h1 h2 h3 h4 her
    induction er.runs with
    | nil => rfl
    | cons r l ih =>
      simp only [List.countP_cons, List.length_cons]
      cases r.status <;> simp <;> omega
  have hst : ∀ st, er.stats.get st = er.runs.countP (fun r => r.status = st) := by
    rcases her with rfl | h | ⟨n, h⟩ | ⟨r, n, h⟩ | h
    · exact hI.stats
    · obtain ⟨pre, post, htr⟩ := List.append_of_mem h
      exact (hT.always pre _ post htr).2.stats
    · obtain ⟨pre, post, htr⟩ := List.append_of_mem h
      exact (hT.always pre _ post htr).2.2.2.1.stats
    · obtain ⟨pre, post, htr⟩ := List.append_of_mem h
      exact (hT.always pre _ post htr).2.1.stats
    · obtain ⟨pre, post, htr⟩ := List.append_of_mem h
      exact (hT.always pre _ post htr).2.1.stats
  exact ⟨hst, key hst⟩

/-- **C13**.  At the end the counters sum to `total_count`. -/
theorem C13_final (C : Cfg) (hwf : C.dag.WF) (ms : List Move)
    (hfin : (exec C ms).phase = .finished) :
    let er := (exec C ms).erec
    er.stats.ok + er.stats.skip + er.stats.depf + er.stats.fail = er.totalCount := by
  obtain ⟨h1, _, h3⟩ := C02_one_record C hwf ms hfin
  have := (C13_stats C hwf ms _ (.inl rfl)).2
  simp only
  rw [this, h3, ← h1.length_eq, List.length_map]

example : (exec (Ex.cfg 2) Ex.done2).phase = .finished ∧
    (exec (Ex.cfg 2) Ex.done2).erec.stats = { ok := 2, skip := 1, depf := 1, fail := 1 } :=
  ⟨Ex.fin2, by decide +kernel⟩

/-- **C49**.  With any monotone clock, every record has `start ≤ end`, and a task ordered after
another one starts no earlier than that one's end.  (The `start`/`end` fields of the model count
the observable events before the clock was read; `clock i` is the reading at that moment.) -/
theorem C49_times (C : Cfg) (hwf : C.dag.WF) (ms : List Move) (clock : Nat → Int)
    (hclock : ∀ i j, i ≤ j → clock i ≤ clock j) (r : RunRecord)
    (hr : r ∈ recsOf (exec C ms).trace) :
    clock r.start ≤ clock r.end ∧
    ∀ r2 ∈ recsOf (exec C ms).trace, AfterEdge C.dag r.node r2.node →
      clock r2.end ≤ clock r.start := by
  obtain ⟨hI, hT⟩ := both_exec hwf ms
  rw [hT.recs] at hr ⊢
  exact ⟨hclock _ _ (hI.recs r hr).times.1,
    fun r2 hr2 ha => hclock _ _ ((hI.recs r hr).predTimes r2 hr2 ha)⟩

example : ∃ r ∈ recsOf (exec (Ex.cfg 2) Ex.done2).trace,
    ∃ r2 ∈ recsOf (exec (Ex.cfg 2) Ex.done2).trace, r.node = 2 ∧ r2.node = 4 ∧
      r2.end < r.start ∧ r.start < r.end := by decide +kernel

end Joque
