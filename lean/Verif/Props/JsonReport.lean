import Verif.Spec.JsonReport
import Verif.Props.Report
import Verif.Props.Time
import Verif.Props.Exec5

/-!
# C109: what the JSON export says about an execution
-/

namespace Joque

theorem at_get (j : Json) (k : String) : j.at k = j.get k.toList := by
  cases j with
  | obj l =>
    show (l.find? fun p => p.1 = k.toList).map Prod.snd = member k.toList l
    induction l with
    | nil => rfl
    | cons p l ih =>
      obtain ⟨k', v⟩ := p
      rw [List.find?_cons]
      simp only [member]
      by_cases h : k' = k.toList
      · simp [h]
      · simp [h, ih]
  | _ => rfl

theorem chunk_read (c : Chunk) : c.toJson.chunk = some c := by
  obtain ⟨h1, h2⟩ := chunk_members c
  unfold Json.chunk
  rw [at_get, at_get, h1, h2]
  obtain ⟨t, d⟩ := c
  cases t <;> rfl

theorem mapM_read {α β γ : Type} {f : α → β} {g : β → Option γ} {h : α → γ} (hfg : ∀ a, g (f a) = some (h a))
    (l : List α) : (l.map f).mapM g = some (l.map h) := by
  induction l with
  | nil => rfl
  | cons a l ih => rw [List.map_cons, List.mapM_cons, hfg, ih]; rfl

theorem run_read (fmt : Int → Str) (clock : Nat → Int) (r : RunRecord) :
    (r.toJson fmt clock).run = some (r.name, r.verdict, fmt (clock r.start), fmt (clock r.end)) := by
  obtain ⟨h1, h2, h3, h4, h5, h6⟩ := C44_run_members fmt clock r
  unfold Json.run
  rw [at_get, at_get, at_get, at_get, at_get, at_get, h1, h2, h3, h4, h5, h6]
  have hs : statusOf r.status.toInt = some r.status := by cases r.status <;> rfl
  have ho : (r.output.map Chunk.toJson).mapM Json.chunk = some r.output := by
    rw [mapM_read (h := id) chunk_read]; simp
  simp [Json.text, Json.int, Json.list, hs, ho, RunRecord.verdict]

/-- **C109**, reading.  Everything in the record of an execution can be read off its export. -/
theorem C109_reads (fmt : Int → Str) (clock : Nat → Int) (er : ExecRecord) :
    ∃ R, readJson (er.toJson fmt clock) = some R ∧
      R.ok = er.stats.ok ∧ R.skip = er.stats.skip ∧ R.depf = er.stats.depf ∧ R.fail = er.stats.fail ∧
      R.total = er.totalCount ∧
      R.runs = er.runs.map fun r => (r.name, r.verdict, fmt (clock r.start), fmt (clock r.end)) := by
  obtain ⟨h1, h2, h3⟩ := C44_exec_members fmt clock er
  have e1 := h1 .ok; have e2 := h1 .skip; have e3 := h1 .depf; have e4 := h1 .fail
  refine ⟨⟨er.stats.ok, er.stats.skip, er.stats.depf, er.stats.fail, er.totalCount, _⟩, ?_, rfl, rfl, rfl, rfl,
    rfl, rfl⟩
  unfold readJson
  rw [at_get, at_get, at_get, at_get, at_get, at_get, h2, h3]
  rw [show "OK".toList = Status.name .ok from rfl, show "SKIP".toList = Status.name .skip from rfl,
    show "DEPF".toList = Status.name .depf from rfl, show "FAIL".toList = Status.name .fail from rfl,
    e1, e2, e3, e4]
  simp [Json.int, Json.list, mapM_read (run_read fmt clock), Stats.get]

/-- `er` is shown to the visitor at some moment -/
def ShownTo (C : Cfg) (ms : List Move) (er : ExecRecord) : Prop :=
  .onTick er ∈ (exec C ms).trace ∨ (∃ n, .beforeRun er n ∈ (exec C ms).trace) ∨
    (∃ r n, .afterRun er r n ∈ (exec C ms).trace) ∨ .afterExecution er ∈ (exec C ms).trace

/-- **C109**, at any moment.  The counters count the tasks in the list by their status, and the total is the
number of tasks there are; at the end the list has all of them. -/
theorem C109_counts (C : Cfg) (hwf : C.dag.WF) (ms : List Move) (fmt : Int → Str) (clock : Nat → Int)
    (er : ExecRecord) (her : ShownTo C ms er) :
    ∃ R, readJson (er.toJson fmt clock) = some R ∧
      R.ok = R.runs.countP (fun x => x.2.1.status = .ok) ∧
      R.skip = R.runs.countP (fun x => x.2.1.status = .skip) ∧
      R.depf = R.runs.countP (fun x => x.2.1.status = .depf) ∧
      R.fail = R.runs.countP (fun x => x.2.1.status = .fail) ∧
      R.ok + R.skip + R.depf + R.fail = R.runs.length ∧
      R.total = C.dag.nodes.length ∧ R.runs.length ≤ C.dag.nodes.length ∧
      (.afterExecution er ∈ (exec C ms).trace → R.runs.length = C.dag.nodes.length) := by
  obtain ⟨R, h0, h1, h2, h3, h4, h5, h6⟩ := C109_reads fmt clock er
  obtain ⟨hs, hsum⟩ := C13_stats C hwf ms er (.inr her)
  have hc : ∀ st, (R.runs.countP fun x => x.2.1.status = st) = er.stats.get st := by
    intro st
    rw [h6, List.countP_map, hs st]
    rfl
  have hlen : R.runs.length = er.runs.length := by rw [h6, List.length_map]
  have hT := tinv_exec hwf ms
  obtain ⟨hnd, hin⟩ := C02_no_double_record C hwf ms
  have hle : ∀ pre post, (exec C ms).trace = pre ++ post → (recsOf pre).length ≤ C.dag.nodes.length := by
    intro pre post htr
    rw [htr, recsOf_append, List.map_append] at hnd
    rw [htr, recsOf_append] at hin
    have := (List.subperm_of_subset (List.nodup_append.1 hnd).1 (l₂ := C.dag.nodes) (by
      intro x hx
      obtain ⟨r, hr, rfl⟩ := List.mem_map.1 hx
      exact hin r (List.mem_append_left _ hr))).length_le
    simpa using this
  have htot : er.totalCount = C.dag.nodes.length ∧ er.runs.length ≤ C.dag.nodes.length := by
    rcases her with h | ⟨n, h⟩ | ⟨r, n, h⟩ | h <;> obtain ⟨pre, post, htr⟩ := List.append_of_mem h
    · have hok := (hT.always pre _ post htr).2
      exact ⟨hok.total, by rw [hok.runs]; exact hle pre _ htr⟩
    · have hok := (hT.always pre _ post htr).2.2.2.1
      exact ⟨hok.total, by rw [hok.runs]; exact hle pre _ htr⟩
    · have hok := (hT.always pre _ post htr).2.1
      exact ⟨hok.total, by rw [hok.runs]; exact hle pre _ htr⟩
    · have hok := (hT.always pre _ post htr).2.1
      exact ⟨hok.total, by rw [hok.runs]; exact hle pre _ htr⟩
  refine ⟨R, h0, ?_, ?_, ?_, ?_, ?_, ?_, ?_, ?_⟩
  · rw [h1, hc]; rfl
  · rw [h2, hc]; rfl
  · rw [h3, hc]; rfl
  · rw [h4, hc]; rfl
  · rw [h1, h2, h3, h4, hlen, ← hsum]; push_cast; rfl
  · rw [h5, htot.1]
  · rw [hlen]; exact htot.2
  · intro h
    obtain ⟨pre, post, htr⟩ := List.append_of_mem h
    obtain ⟨-, -, h7, h8, -⟩ := (C15_after_execution C hwf ms).1 pre er post htr
    refine Nat.le_antisymm (by rw [hlen]; exact htot.2) ?_
    rw [hlen, h8]
    have hsub : C.dag.nodes ⊆ (recsOf pre).map RunRecord.node := by
      intro n hn
      obtain ⟨r, hr, rfl⟩ := h7 n hn
      exact List.mem_map_of_mem hr
    have := (List.subperm_of_subset hwf.nodup hsub).length_le
    simpa using this

/-- the record an event shows to the visitor -/
def Event.shows : Event → Option ExecRecord
  | .onTick er => some er
  | .beforeRun er _ => some er
  | .afterRun er _ _ => some er
  | .afterExecution er => some er
  | _ => none

/-- **C109**, over time.  A program that exports the record again and again sees the list grow: nothing in it
changes or goes away. -/
theorem C109_grows (C : Cfg) (hwf : C.dag.WF) (ms : List Move) (fmt : Int → Str) (clock : Nat → Int)
    (pre mid post : List Event) (e e' : Event) (er er' : ExecRecord)
    (htr : (exec C ms).trace = pre ++ e :: (mid ++ e' :: post)) (he : e.shows = some er)
    (he' : e'.shows = some er') :
    ∃ R R', readJson (er.toJson fmt clock) = some R ∧ readJson (er'.toJson fmt clock) = some R' ∧
      R.runs <+: R'.runs := by
  have hT := tinv_exec hwf ms
  have hruns : ∀ pre e post er, (exec C ms).trace = pre ++ e :: post → e.shows = some er →
      er.runs = recsOf pre := by
    intro pre e post er htr he
    have h := hT.always pre e post htr
    cases e <;> simp only [Event.shows, Option.some.injEq, reduceCtorEq] at he <;> subst he
    · exact h.2.runs
    · exact h.2.2.2.1.runs
    · exact h.2.1.runs
    · exact h.2.1.runs
  obtain ⟨R, h0, -, -, -, -, -, h6⟩ := C109_reads fmt clock er
  obtain ⟨R', h0', -, -, -, -, -, h6'⟩ := C109_reads fmt clock er'
  refine ⟨R, R', h0, h0', ?_⟩
  rw [h6, h6', hruns pre e _ er htr he, hruns (pre ++ e :: mid) e' post er' (by rw [htr]; simp) he',
    recsOf_append]
  exact (List.prefix_append _ _).map _

/-- **C109**, from the task set to the export.  Whatever the schedule, the list of a finished execution has
the selected tasks, each once: a task of the set under its full name, a dependency from elsewhere under the
empty name, with status, return code and output as they have to be (the verdicts of C70). -/
theorem C109_report (E : BEnv) (ts : TaskSet) (univ visit : List TaskId)
    (order : List TaskId → List TaskId) (filter : Str) (s : BSt)
    (h : Run E ts univ visit order filter s) (tc : Nat) (ms : List Move)
    (hfin : (exec (execCfg E.store s.dag tc) ms).phase = .finished) (fmt : Int → Str) (clock : Nat → Int)
    (v : TaskId → Verdict) (hv : Verdicts E.store (Selected E.store ts filter) v) :
    ∃ (R : JsonReport) (tasks : List TaskId) (name : TaskId → Str),
      readJson ((exec (execCfg E.store s.dag tc) ms).erec.toJson fmt clock) = some R ∧
      tasks.Nodup ∧ (∀ t, t ∈ tasks ↔ Selected E.store ts filter t) ∧
      R.runs.map (fun x => (x.1, x.2.1)) = tasks.map (fun t => (name t, v t)) ∧
      (∀ p, ∀ t ∈ tasks, At ts p t → name t = fullName p) ∧
      ∀ t ∈ tasks, ¬ ts.Has t → name t = [] := by
  have hwf := h.wf tc
  obtain ⟨hperm, hrec, _⟩ := C02_one_record _ hwf ms hfin
  obtain ⟨hnd, hsel⟩ := C22_executed E ts univ visit order filter s h tc ms hfin
  obtain ⟨hall, hverd, _⟩ := C70_meaning E ts univ visit order filter s h tc ms hfin
  have hname : ∀ t, ∃ nm, ∀ r ∈ (exec (execCfg E.store s.dag tc) ms).erec.runs, r.t = t →
      nm = r.name := by
    intro t
    by_cases ht : ∃ r ∈ (exec (execCfg E.store s.dag tc) ms).erec.runs, r.t = t
    · obtain ⟨r, hr, hrt⟩ := ht
      refine ⟨r.name, fun r' hr' hrt' => ?_⟩
      rw [List.inj_on_of_nodup_map hnd hr hr' (hrt.trans hrt'.symm)]
    · exact ⟨[], fun r hr hrt => absurd ⟨r, hr, hrt⟩ ht⟩
  choose name hname using hname
  obtain ⟨R, h0, -, -, -, -, -, h6⟩ := C109_reads fmt clock (exec (execCfg E.store s.dag tc) ms).erec
  refine ⟨R, (exec (execCfg E.store s.dag tc) ms).erec.runs.map RunRecord.t, name, h0, hnd, hsel,
    ?_, ?_, ?_⟩
  · rw [h6, List.map_map, List.map_map]
    apply List.map_congr_left
    intro r hr
    show (r.name, r.verdict) = (name r.t, v r.t)
    rw [hname r.t r hr rfl, hverd v hv r hr]
  · intro p t ht hp
    obtain ⟨r, hr, rfl⟩ := List.mem_map.1 ht
    have hrn : r.node ∈ s.dag.nodes := hperm.mem_iff.1 (List.mem_map_of_mem hr)
    obtain ⟨e1, e2⟩ := hrec r hr
    rw [hname r.t r hr rfl, e2]
    rw [e1] at hp
    exact (run_name h hrn).1 p hp
  · intro t ht hx
    obtain ⟨r, hr, rfl⟩ := List.mem_map.1 ht
    have hrn : r.node ∈ s.dag.nodes := hperm.mem_iff.1 (List.mem_map_of_mem hr)
    obtain ⟨e1, e2⟩ := hrec r hr
    rw [hname r.t r hr rfl, e2]
    rw [e1] at hx
    exact (run_name h hrn).2 hx

/-- The hypotheses of `C109_report` are met: `a` fails, so `x` is not run, and the export says so. -/
example : ∃ v, Verdicts (Ex.kenv (Ex.kstore [] Ex.fresh)).store
      (Selected (Ex.kenv (Ex.kstore [] Ex.fresh)).store Ex.tree []) v ∧
    (Ex.kend [] Ex.fresh 26).phase = .finished ∧
    readJson ((Ex.kend [] Ex.fresh 26).erec.toJson jsonTime exClock) = some ⟨1, 1, 1, 1, 4,
      [("//z/y".toList, ⟨.skip, 0, []⟩, "2024-02-28 23:59:55.200000000".toList,
          "2024-02-28 23:59:55.200000000".toList),
       ("//z/v/u".toList, ⟨.ok, 0, []⟩, "2024-02-28 23:59:56.800000000".toList,
          "2024-02-28 23:59:58.400000000".toList),
       ("//a".toList, ⟨.fail, 3, []⟩, "2024-02-28 23:59:59.600000000".toList,
          "2024-02-29 00:00:01.200000000".toList),
       ("//x".toList, ⟨.depf, 0, []⟩, "2024-02-29 00:00:02.000000000".toList,
          "2024-02-29 00:00:02.000000000".toList)]⟩ := by
  have hr := Ex.kbuilt_ok [] Ex.fresh (by decide +kernel)
  have hfin : (Ex.kend [] Ex.fresh 26).phase = .finished := by decide +kernel
  obtain ⟨_, _, v, hv⟩ := C70_meaning _ _ _ _ _ _ _ hr 0 (List.replicate 26 .ctl) hfin
  exact ⟨v, hv, hfin, by decide +kernel⟩

/-- the record at the start of the second task and at the end -/
example : ∃ er er', ShownTo (Ex.cfg 2) Ex.done2 er ∧ ShownTo (Ex.cfg 2) Ex.done2 er' ∧
    er.runs.length = 1 ∧ er'.runs.length = 5 := by
  have h : ∃ er ∈ (exec (Ex.cfg 2) Ex.done2).trace.filterMap Event.shows, er.runs.length = 1 := by
    decide +kernel
  have h' : ∃ er ∈ (exec (Ex.cfg 2) Ex.done2).trace.filterMap Event.shows, er.runs.length = 5 := by
    decide +kernel
  have key : ∀ er, er ∈ (exec (Ex.cfg 2) Ex.done2).trace.filterMap Event.shows →
      ShownTo (Ex.cfg 2) Ex.done2 er := by
    intro er her
    obtain ⟨e, he, hs⟩ := List.mem_filterMap.1 her
    cases e <;> simp only [Event.shows, Option.some.injEq, reduceCtorEq] at hs <;> subst hs
    · exact .inl he
    · exact .inr (.inl ⟨_, he⟩)
    · exact .inr (.inr (.inl ⟨_, _, he⟩))
    · exact .inr (.inr (.inr he))
  obtain ⟨er, h1, h2⟩ := h
  obtain ⟨er', h1', h2'⟩ := h'
  exact ⟨er, er', key er h1, key er' h1', h2, h2'⟩

end Joque
