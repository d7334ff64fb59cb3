import Verif.Spec.Report
import Verif.Props.JUnit
import Verif.Props.Outcome
import Verif.Props.RefInv

/-!
# C106: what the JUnit report says about each task

From building the graph to reading the report.
-/

namespace Joque

theorem testcase_caseTree (secs : RunRecord → Str) (r : RunRecord) :
    (caseTree secs r).testcase = some (r.name, decide (r.retcode ≠ 0)) := by
  have h1 : ("name".toList == "name".toList) = true := by decide
  unfold caseTree Xml.testcase
  dsimp only
  rw [if_pos rfl, List.lookup_cons, h1]
  by_cases h : r.retcode = 0 <;> simp [h]

theorem mapM_cases (secs : RunRecord → Str) (rs : List RunRecord) :
    (rs.map (caseTree secs)).mapM Xml.testcase = some (rs.map fun r => (r.name, decide (r.retcode ≠ 0))) := by
  induction rs with
  | nil => rfl
  | cons r rs ih =>
    rw [List.map_cons, List.mapM_cons, testcase_caseTree, ih]
    rfl

/-- **C106**, the tests.  A reader of the report sees one test per record, in order, under the name of
the task, marked as failed exactly if the status is FAIL. -/
theorem C106_cases (C : Cfg) (hwf : C.dag.WF) (ms : List Move) (clock : Nat → Int)
    (secs : RunRecord → Str) (stamp tsName : Str) (hne : (exec C ms).erec.runs ≠ [])
    (hstamp : XmlClean stamp) (hts : XmlClean tsName) (hsecs : ∀ r, XmlClean (secs r))
    (hnames : ∀ n ∈ C.dag.nodes, XmlClean (C.dag.name n)) :
    ∃ doc, junitXml clock secs stamp tsName (exec C ms).erec = some doc ∧
      readReport doc = some ((exec C ms).erec.runs.map fun r => (r.name, decide (r.status = .fail))) := by
  have hI := inv_exec hwf ms
  have hT := tinv_exec hwf ms
  obtain ⟨t, doc, _, hd, hp⟩ := C42_partial clock secs stamp tsName (exec C ms).erec hne hstamp hts
    (fun r hr => ⟨by
      have hr' := hr
      rw [← hT.recs] at hr'
      rw [(hI.recs r hr).name]
      exact hnames _ ((C02_no_double_record C hwf ms).2 r hr'), hsecs r⟩)
  refine ⟨doc, hd, ?_⟩
  unfold readReport
  rw [hp]
  unfold suiteTree
  simp only [if_true]
  rw [mapM_cases]
  congr 1
  apply List.map_congr_left
  intro r hr
  rw [← hT.recs] at hr
  congr 1
  exact decide_eq_decide.2 (C06_retcode C hwf ms r hr)

/-- the name under which a task of the set is reported -/
theorem run_name {E : BEnv} {ts : TaskSet} {univ visit : List TaskId}
    {order : List TaskId → List TaskId} {filter : Str} {s : BSt}
    (h : Run E ts univ visit order filter s) {n : Node} (hn : n ∈ s.dag.nodes) :
    (∀ p, At ts p (s.dag.task n) → s.dag.name n = fullName p) ∧
    (¬ ts.Has (s.dag.task n) → s.dag.name n = []) := by
  obtain ⟨fuel, h1, h2⟩ := h.built
  have hnew : newNodes Dag.empty s = s.dag.nodes := by
    simp [newNodes, Dag.empty]
  rw [← hnew] at hn
  refine ⟨(C22_selected E Dag.empty ts univ visit order h.env fuel h1 filter s h2).2.2 n hn, ?_⟩
  intro hx
  have hb := build_ok h.env h1 h2
  have : newNodes Dag.empty s = s.index.map Prod.snd := newNodes_eq (fixOf_ok h.env) hb.inv
  rw [this] at hn
  obtain ⟨e, he, rfl⟩ := List.mem_map.1 hn
  obtain ⟨h3, h4⟩ := hb.inv.data e he
  rw [h3] at hx
  rw [h4]
  have : mget (fixOf E Dag.empty ts univ).tmp0 e.1 = none :=
    mget_none.2 (fun h => hx (has_tmp.1 h))
  rw [this]; rfl

/-- **C106**, from the task set to the report.  Whatever the schedule, the tests of the report are the
selected tasks, each once; a task of the set is there under its full name, a dependency from
elsewhere under the empty name; and it is marked as failed exactly if it is to fail (the verdicts of
C70). -/
theorem C106_report (E : BEnv) (ts : TaskSet) (univ visit : List TaskId)
    (order : List TaskId → List TaskId) (filter : Str) (s : BSt)
    (h : Run E ts univ visit order filter s) (tc : Nat) (ms : List Move)
    (hfin : (exec (execCfg E.store s.dag tc) ms).phase = .finished) (clock : Nat → Int)
    (secs : RunRecord → Str) (stamp tsName : Str) (hsome : ∃ t, Selected E.store ts filter t)
    (hstamp : XmlClean stamp) (hts : XmlClean tsName) (hsecs : ∀ r, XmlClean (secs r))
    (hnames : ∀ p t, At ts p t → XmlClean (fullName p)) (v : TaskId → Verdict)
    (hv : Verdicts E.store (Selected E.store ts filter) v) :
    ∃ (doc : Str) (tasks : List TaskId) (name : TaskId → Str), junitXml clock secs stamp tsName (exec (execCfg E.store s.dag tc) ms).erec =
        some doc ∧
      tasks.Nodup ∧ (∀ t, t ∈ tasks ↔ Selected E.store ts filter t) ∧
      readReport doc = some (tasks.map fun t => (name t, decide ((v t).status = .fail))) ∧
      (∀ p, ∀ t ∈ tasks, At ts p t → name t = fullName p) ∧
      ∀ t ∈ tasks, ¬ ts.Has t → name t = [] := by
  have hwf := h.wf tc
  obtain ⟨hperm, hrec, _⟩ := C02_one_record _ hwf ms hfin
  obtain ⟨hnd, hsel⟩ := C22_executed E ts univ visit order filter s h tc ms hfin
  obtain ⟨hall, hverd, _⟩ := C70_meaning E ts univ visit order filter s h tc ms hfin
  have hne : (exec (execCfg E.store s.dag tc) ms).erec.runs ≠ [] := by
    obtain ⟨t, ht⟩ := hsome
    obtain ⟨r, hr, _⟩ := hall t ht
    exact List.ne_nil_of_mem hr
  have hclean : ∀ n ∈ s.dag.nodes, XmlClean (s.dag.name n) := by
    intro n hn
    by_cases hx : ts.Has (s.dag.task n)
    · obtain ⟨p, hp⟩ := hx
      rw [(run_name h hn).1 p hp]
      exact hnames p _ hp
    · rw [(run_name h hn).2 hx]
      intro c hc; cases hc
  obtain ⟨doc, h1, h2⟩ := C106_cases (execCfg E.store s.dag tc) hwf ms clock secs stamp tsName hne
    hstamp hts hsecs hclean
  have hname : ∀ t, ∃ nm, ∀ r ∈ (exec (execCfg E.store s.dag tc) ms).erec.runs, r.t = t →
      nm = r.name := by
    intro t
    by_cases ht : ∃ r ∈ (exec (execCfg E.store s.dag tc) ms).erec.runs, r.t = t
    · obtain ⟨r, hr, hrt⟩ := ht
      refine ⟨r.name, fun r' hr' hrt' => ?_⟩
      rw [List.inj_on_of_nodup_map hnd hr hr' (hrt.trans hrt'.symm)]
    · exact ⟨[], fun r hr hrt => absurd ⟨r, hr, hrt⟩ ht⟩
  choose name hname using hname
  refine ⟨doc, (exec (execCfg E.store s.dag tc) ms).erec.runs.map RunRecord.t, name, h1, hnd, hsel,
    ?_, ?_, ?_⟩
  · rw [h2, List.map_map]
    congr 1
    apply List.map_congr_left
    intro r hr
    show (r.name, _) = (name r.t, _)
    rw [hname r.t r hr rfl, hverd v hv r hr]
    rfl
  · intro p t ht hp
    obtain ⟨r, hr, rfl⟩ := List.mem_map.1 ht
    have hrn : r.node ∈ s.dag.nodes := hperm.mem_iff.1 (List.mem_map_of_mem hr)
    obtain ⟨e1, e2⟩ := hrec r hr
    rw [hname r.t r hr rfl, e2]
    rw [e1] at hp
    exact (run_name h hrn).1 p hp
  · intro t ht hx
    obtain ⟨r, hr, rfl⟩ := List.mem_map.1 ht
    have hrn : r.node ∈ s.dag.nodes := hperm.mem_iff.1 (List.mem_map_of_mem hr)
    obtain ⟨e1, e2⟩ := hrec r hr
    rw [hname r.t r hr rfl, e2]
    rw [e1] at hx
    exact (run_name h hrn).2 hx

/-- if no record says FAIL then none says DEPF -/
theorem no_fail_iff (C : Cfg) (hwf : C.dag.WF) (ms : List Move) :
    (∀ r ∈ (exec C ms).erec.runs, r.status ≠ .fail) ↔
    ∀ r ∈ (exec C ms).erec.runs, r.status = .ok ∨ r.status = .skip := by
  have hT := tinv_exec hwf ms
  constructor
  · intro h r hr
    cases hs : r.status with
    | ok => exact .inl rfl
    | skip => exact .inr rfl
    | fail => exact absurd hs (h r hr)
    | depf =>
      rw [← hT.recs] at hr h
      obtain ⟨r', hr', _, hf⟩ := C05_root C hwf ms r hr hs
      exact absurd hf (h r' hr')
  · intro h r hr hf
    rcases h r hr with h | h <;> rw [h] at hf <;> cases hf

/-- **C106**, the whole.  The report marks no test as failed if and only if every task was carried out
or up to date: where a task was left out because of a dependency, another one is marked. -/
theorem C106_green (C : Cfg) (hwf : C.dag.WF) (ms : List Move) (clock : Nat → Int)
    (secs : RunRecord → Str) (stamp tsName : Str) (hne : (exec C ms).erec.runs ≠ [])
    (hstamp : XmlClean stamp) (hts : XmlClean tsName) (hsecs : ∀ r, XmlClean (secs r))
    (hnames : ∀ n ∈ C.dag.nodes, XmlClean (C.dag.name n)) :
    ∃ doc rep, junitXml clock secs stamp tsName (exec C ms).erec = some doc ∧
      readReport doc = some rep ∧
      ((∀ e ∈ rep, e.2 = false) ↔
        ∀ r ∈ (exec C ms).erec.runs, r.status = .ok ∨ r.status = .skip) := by
  obtain ⟨doc, h1, h2⟩ := C106_cases C hwf ms clock secs stamp tsName hne hstamp hts hsecs hnames
  refine ⟨doc, _, h1, h2, ?_⟩
  rw [← no_fail_iff C hwf ms]
  constructor
  · intro h r hr hs
    have := h _ (List.mem_map_of_mem hr)
    simp [hs] at this
  · intro h e he
    obtain ⟨r, hr, rfl⟩ := List.mem_map.1 he
    simp [h r hr]

/-- **C106**, names.  Two tasks have the same name in the report exactly if both come from outside the
set, or their paths are written the same. -/
theorem C106_names (E : BEnv) (ts : TaskSet) (univ visit : List TaskId)
    (order : List TaskId → List TaskId) (filter : Str) (s : BSt)
    (h : Run E ts univ visit order filter s) (tc : Nat) (ms : List Move)
    (hfin : (exec (execCfg E.store s.dag tc) ms).phase = .finished) (r r' : RunRecord)
    (hr : r ∈ (exec (execCfg E.store s.dag tc) ms).erec.runs)
    (hr' : r' ∈ (exec (execCfg E.store s.dag tc) ms).erec.runs) :
    r.name = r'.name ↔ (¬ ts.Has r.t ∧ ¬ ts.Has r'.t) ∨
      ∃ p q, At ts p r.t ∧ At ts q r'.t ∧ fullName p = fullName q := by
  obtain ⟨hperm, hrec, _⟩ := C02_one_record _ (h.wf tc) ms hfin
  have key : ∀ r ∈ (exec (execCfg E.store s.dag tc) ms).erec.runs,
      (∀ p, At ts p r.t → r.name = fullName p) ∧ (¬ ts.Has r.t → r.name = []) := by
    intro r hr
    have hrn : r.node ∈ s.dag.nodes := hperm.mem_iff.1 (List.mem_map_of_mem hr)
    obtain ⟨e1, e2⟩ := hrec r hr
    rw [e1, e2]
    exact run_name h hrn
  have hfull : ∀ p, fullName p ≠ [] := fun p hp => by simp [fullName] at hp
  obtain ⟨a1, a2⟩ := key r hr
  obtain ⟨b1, b2⟩ := key r' hr'
  constructor
  · intro he
    by_cases hx : ts.Has r.t
    · obtain ⟨p, hp⟩ := hx
      by_cases hy : ts.Has r'.t
      · obtain ⟨q, hq⟩ := hy
        exact .inr ⟨p, q, hp, hq, by rw [← a1 p hp, ← b1 q hq, he]⟩
      · rw [a1 p hp, b2 hy] at he
        exact absurd he (hfull p)
    · by_cases hy : ts.Has r'.t
      · obtain ⟨q, hq⟩ := hy
        rw [a2 hx, b1 q hq] at he
        exact absurd he.symm (hfull q)
      · exact .inl ⟨hx, hy⟩
  · rintro (⟨hx, hy⟩ | ⟨p, q, hp, hq, he⟩)
    · rw [a2 hx, b2 hy]
    · rw [a1 p hp, b1 q hq, he]

/-- a path leads to one task -/
theorem At.unique {ts : TaskSet} (hk : ts.Keys) {p : List Str} {t u : TaskId} (ht : At ts p t)
    (hu : At ts p u) : t = u := by
  have key : ∀ {β : Type} {l : List (Str × β)} {n : Str} {a b : β},
      (l.map Prod.fst).Pairwise (· < ·) → (n, a) ∈ l → (n, b) ∈ l → a = b := by
    intro β l n a b hl ha hb
    have hnd : (l.map Prod.fst).Nodup := hl.imp fun h he => by rw [he] at h; exact List.lt_irrefl _ h
    have := List.inj_on_of_nodup_map hnd ha hb rfl
    exact congrArg Prod.snd this
  induction ht with
  | here h =>
    cases hk with
    | mk h1 h2 h3 =>
      cases hu with
      | here h' => exact key h1 h h'
      | sub _ h' => exact absurd rfl h'.ne_nil
  | sub h hat ih =>
    cases hk with
    | mk h1 h2 h3 =>
      cases hu with
      | here h' => exact absurd rfl hat.ne_nil
      | sub h' hat' =>
        have := key h2 h h'
        subst this
        exact ih (h3 _ h) hat'

/-- **C106**, the part that holds.  If the set contains the dependencies of its tasks, no name in it
contains '/' and no task was left out because of a dependency, the report says of every selected
task, under a name no other task has, whether it was carried out. -/
theorem C106_partial (E : BEnv) (ts : TaskSet) (univ visit : List TaskId)
    (order : List TaskId → List TaskId) (filter : Str) (s : BSt)
    (h : Run E ts univ visit order filter s) (tc : Nat) (ms : List Move)
    (hfin : (exec (execCfg E.store s.dag tc) ms).phase = .finished) (clock : Nat → Int)
    (secs : RunRecord → Str) (stamp tsName : Str) (hsome : ∃ t, Selected E.store ts filter t)
    (hstamp : XmlClean stamp) (hts : XmlClean tsName) (hsecs : ∀ r, XmlClean (secs r))
    (hnames : ∀ p t, At ts p t → XmlClean (fullName p)) (v : TaskId → Verdict)
    (hv : Verdicts E.store (Selected E.store ts filter) v)
    (hin : ∀ t, Selected E.store ts filter t → ts.Has t)
    (hslash : ∀ p t, At ts p t → ∀ c ∈ p, '/' ∉ c)
    (hdep : ∀ t, Selected E.store ts filter t → (v t).status ≠ .depf) :
    ∃ doc rep, junitXml clock secs stamp tsName (exec (execCfg E.store s.dag tc) ms).erec =
        some doc ∧ readReport doc = some rep ∧ (rep.map Prod.fst).Nodup ∧
      ∀ p t, At ts p t → Selected E.store ts filter t →
        ((fullName p, false) ∈ rep ↔ (v t).status = .ok ∨ (v t).status = .skip) ∧
        ((fullName p, true) ∈ rep ↔ (v t).status = .fail) := by
  obtain ⟨doc, tasks, name, h1, h2, h3, h4, h5, _⟩ := C106_report E ts univ visit order filter s h tc ms
    hfin clock secs stamp tsName hsome hstamp hts hsecs hnames v hv
  have hinj : ∀ t ∈ tasks, ∀ u ∈ tasks, name t = name u → t = u := by
    intro t ht u hu he
    obtain ⟨p, hp⟩ := hin t ((h3 t).1 ht)
    obtain ⟨q, hq⟩ := hin u ((h3 u).1 hu)
    rw [h5 p t ht hp, h5 q u hu hq] at he
    have := C24_distinct ts hslash p q t u hp hq he
    subst this
    exact At.unique h.env.set.1 hp hq
  refine ⟨doc, _, h1, h4, ?_, ?_⟩
  · rw [List.map_map]
    exact (List.nodup_map_iff_inj_on h2).2 fun t ht u hu he => hinj t ht u hu he
  · intro p t hp ht
    have htm := (h3 t).2 ht
    have hn := h5 p t htm hp
    have key : ∀ b, (fullName p, b) ∈ tasks.map (fun t => (name t, decide ((v t).status = .fail))) ↔
        decide ((v t).status = .fail) = b := by
      intro b
      constructor
      · intro hm
        obtain ⟨u, hu, he⟩ := List.mem_map.1 hm
        injection he with he1 he2
        rw [← hn] at he1
        rw [← hinj u hu t htm he1]; exact he2
      · rintro rfl
        exact List.mem_map.2 ⟨t, htm, by rw [hn]⟩
    rw [key, key]
    have := hdep t ht
    cases hs : (v t).status <;> simp_all

/-- What C106 asks of a report: no name twice, every selected task is in the set under some path, and
the testcase under that path says whether the task was carried out. -/
structure ReportRight (E : BEnv) (ts : TaskSet) (filter : Str) (v : TaskId → Verdict)
    (rep : List (Str × Bool)) : Prop where
  /-- no other testcase has the name -/
  names : (rep.map Prod.fst).Nodup
  /-- one testcase per selected task, under its full name, marked exactly if not carried out -/
  said : ∀ t, Selected E.store ts filter t → ∃ p, At ts p t ∧
    (fullName p, decide ((v t).status = .fail ∨ (v t).status = .depf)) ∈ rep

/-- **C106**, exactly when it holds: the set contains the dependencies of what is selected, no two
selected tasks have paths written the same, and no task was left out because of a dependency. -/
theorem C106_exact (E : BEnv) (ts : TaskSet) (univ visit : List TaskId)
    (order : List TaskId → List TaskId) (filter : Str) (s : BSt)
    (h : Run E ts univ visit order filter s) (tc : Nat) (ms : List Move)
    (hfin : (exec (execCfg E.store s.dag tc) ms).phase = .finished) (clock : Nat → Int)
    (secs : RunRecord → Str) (stamp tsName : Str) (hsome : ∃ t, Selected E.store ts filter t)
    (hstamp : XmlClean stamp) (hts : XmlClean tsName) (hsecs : ∀ r, XmlClean (secs r))
    (hnames : ∀ p t, At ts p t → XmlClean (fullName p)) (v : TaskId → Verdict)
    (hv : Verdicts E.store (Selected E.store ts filter) v) :
    ∃ doc rep, junitXml clock secs stamp tsName (exec (execCfg E.store s.dag tc) ms).erec =
        some doc ∧ readReport doc = some rep ∧
      (ReportRight E ts filter v rep ↔
        (∀ t, Selected E.store ts filter t → ts.Has t ∧ (v t).status ≠ .depf) ∧
        ∀ p q t u, Selected E.store ts filter t → Selected E.store ts filter u → At ts p t →
          At ts q u → fullName p = fullName q → t = u) := by
  obtain ⟨doc, tasks, name, h1, h2, h3, h4, h5, _⟩ := C106_report E ts univ visit order filter s h tc ms
    hfin clock secs stamp tsName hsome hstamp hts hsecs hnames v hv
  refine ⟨doc, _, h1, h4, ?_⟩
  have hnd : ((tasks.map fun t => (name t, decide ((v t).status = .fail))).map Prod.fst).Nodup ↔
      ∀ t ∈ tasks, ∀ u ∈ tasks, name t = name u → t = u := by
    rw [List.map_map]
    exact List.nodup_map_iff_inj_on h2
  constructor
  · intro hR
    have hinj := hnd.1 hR.names
    have hhas : ∀ t, Selected E.store ts filter t → ts.Has t := by
      intro t ht
      obtain ⟨p, hp, _⟩ := hR.said t ht
      exact ⟨p, hp⟩
    refine ⟨fun t ht => ⟨hhas t ht, fun hd => ?_⟩, fun p q t u ht hu hp hq he => ?_⟩
    · obtain ⟨p, hp, hm⟩ := hR.said t ht
      obtain ⟨u, hu, he⟩ := List.mem_map.1 hm
      injection he with he1 he2
      have htm := (h3 t).2 ht
      rw [← h5 p t htm hp] at he1
      rw [hinj u hu t htm he1, hd] at he2
      simp at he2
    · exact hinj t ((h3 t).2 ht) u ((h3 u).2 hu) (by
        rw [h5 p t ((h3 t).2 ht) hp, h5 q u ((h3 u).2 hu) hq, he])
  · rintro ⟨hin, hpath⟩
    refine ⟨hnd.2 fun t ht u hu he => ?_, fun t ht => ?_⟩
    · obtain ⟨p, hp⟩ := (hin t ((h3 t).1 ht)).1
      obtain ⟨q, hq⟩ := (hin u ((h3 u).1 hu)).1
      rw [h5 p t ht hp, h5 q u hu hq] at he
      exact hpath p q t u ((h3 t).1 ht) ((h3 u).1 hu) hp hq he
    · obtain ⟨⟨p, hp⟩, hd⟩ := hin t ht
      have htm := (h3 t).2 ht
      refine ⟨p, hp, List.mem_map.2 ⟨t, htm, ?_⟩⟩
      rw [h5 p t htm hp]
      simp [hd]

/-- **C106** is false of the code: task 11 depends on task 10, which fails; 11 is not run, but the report
shows it like a test that passed. -/
theorem C106_counterexample : ∃ (E : BEnv) (ts : TaskSet) (univ visit : List TaskId)
    (order : List TaskId → List TaskId) (s : BSt) (ms : List Move) (doc : Str)
    (r : RunRecord),
    Run E ts univ visit order [] s ∧ (exec (execCfg E.store s.dag 0) ms).phase = .finished ∧
    junitXml (fun i => i) (fun _ => ['1']) ['n'] ['s'] (exec (execCfg E.store s.dag 0) ms).erec = some doc ∧
    r ∈ (exec (execCfg E.store s.dag 0) ms).erec.runs ∧ r.status = .depf ∧
    ¬ JobBegan (exec (execCfg E.store s.dag 0) ms).trace r.node ∧
    ∃ rep, readReport doc = some rep ∧ (r.name, false) ∈ rep := by
  have hr := Ex.kbuilt_ok [] Ex.fresh (by decide +kernel)
  have hfin : (Ex.kend [] Ex.fresh 26).phase = .finished := by decide +kernel
  have hd : ∃ r ∈ (Ex.kend [] Ex.fresh 26).erec.runs, r.status = .depf := by decide +kernel
  obtain ⟨r, hrm, hst⟩ := hd
  have hwf : (execCfg (Ex.kstore [] Ex.fresh) (Ex.kst (Ex.kstore [] Ex.fresh)).dag 0).dag.WF := hr.wf 0
  have clean : ∀ c : Char, c ≠ '"' ∧ c ≠ '<' ∧ c ≠ '&' ∧ 32 ≤ c.toNat → XmlClean [c] := by
    intro c hc d hd
    rw [List.mem_singleton.1 hd]; exact hc
  obtain ⟨doc, h1, h2⟩ := C106_cases (execCfg (Ex.kstore [] Ex.fresh) (Ex.kst (Ex.kstore [] Ex.fresh)).dag 0)
    hwf (List.replicate 26 .ctl) (fun i => i) (fun _ => ['1']) ['n'] ['s'] (List.ne_nil_of_mem hrm)
    (clean _ (by decide)) (clean _ (by decide)) (fun _ => clean _ (by decide)) (by
      have : ∀ n ∈ (Ex.kst (Ex.kstore [] Ex.fresh)).dag.nodes,
          ((Ex.kst (Ex.kstore [] Ex.fresh)).dag.name n).all
            (fun c => c ≠ '"' && c ≠ '<' && c ≠ '&' && decide (32 ≤ c.toNat)) = true := by
        decide +kernel
      exact fun n hn => clean_of_all (this n hn))
  refine ⟨_, _, _, _, _, _, List.replicate 26 .ctl, doc, r, hr, hfin, h1, hrm, hst, ?_, _, h2, ?_⟩
  · have hT := tinv_exec hwf (List.replicate 26 .ctl)
    have hm : r ∈ recsOf (exec (execCfg (Ex.kstore [] Ex.fresh) (Ex.kst (Ex.kstore [] Ex.fresh)).dag 0)
        (List.replicate 26 .ctl)).trace := by rw [hT.recs]; exact hrm
    have := C06_status_meaning _ hwf _ r hm
    rw [hst] at this
    exact this.1
  · exact List.mem_map.2 ⟨r, hrm, by rw [hst]; rfl⟩

namespace Ex

/-- task 10 fails, 12 and 13 are as before, and nothing depends on anything -/
def pstore : Store := fun t =>
  if t = 10 then ktask (.callable (kret 3)) [] [] []
  else ktask (.custom (.answer ⟨t == 13, []⟩) (kret 0)) [] [] []

theorem pstore_deps (t : TaskId) : (pstore t).dependsOn = [] := by
  unfold pstore; split <;> rfl

theorem prun : Run (kenv pstore) tree [10, 11, 12, 13] [12, 11, 10, 13] List.reverse [] (kst pstore) := by
  refine kisRun _ (fun t _ d hd => ?_) ?_
  · rw [pstore_deps] at hd; cases hd
  · have : (match kbuilt pstore with | .ok _ => true | _ => false) = true := by decide +kernel
    cases h : kbuilt pstore with
    | ok s => exact ⟨s, rfl⟩
    | ub => rw [h] at this; cases this
    | outOfFuel => rw [h] at this; cases this

end Ex

/-- the hypotheses of `C106_partial` are met: a failing test and three others -/
example : ∃ doc rep, (exec (execCfg Ex.pstore (Ex.kst Ex.pstore).dag 0) (List.replicate 26 .ctl)).phase = .finished ∧
    junitXml (fun i => i) (fun _ => ['1']) ['n'] ['s']
      (exec (execCfg Ex.pstore (Ex.kst Ex.pstore).dag 0) (List.replicate 26 .ctl)).erec = some doc ∧
    readReport doc = some rep ∧ (rep.map Prod.fst).Nodup ∧ ("//a".toList, true) ∈ rep ∧
    ("//z/y".toList, false) ∈ rep := by
  have hfin : (exec (execCfg Ex.pstore (Ex.kst Ex.pstore).dag 0) (List.replicate 26 .ctl)).phase =
      .finished := by decide +kernel
  have hpaths : ∀ p t, At Ex.tree p t → (p, t) ∈ paths Ex.tree := fun p t h => (paths_at _ _ _).2 h
  have hat : ∀ p t, (p, t) ∈ paths Ex.tree → At Ex.tree p t := fun p t h => (paths_at _ _ _).1 h
  have clean : ∀ c : Char, c ≠ '"' ∧ c ≠ '<' ∧ c ≠ '&' ∧ 32 ≤ c.toNat → XmlClean [c] := by
    intro c hc d hd
    rw [List.mem_singleton.1 hd]; exact hc
  have hself : ∀ p t, At Ex.tree p t → Selected (Ex.kenv Ex.pstore).store Ex.tree [] t :=
    fun p t h => ⟨p, t, h, List.nil_infix, .refl⟩
  have hin : ∀ t, Selected (Ex.kenv Ex.pstore).store Ex.tree [] t → Ex.tree.Has t := by
    rintro t ⟨p, u, hp, _, hd⟩
    cases hd with
    | refl => exact ⟨p, hp⟩
    | tail _ h =>
      have h' : t ∈ (Ex.pstore _).dependsOn := h
      rw [Ex.pstore_deps] at h'; cases h'
  obtain ⟨_, hverd, v, hv⟩ := C70_meaning _ _ _ _ _ _ _ Ex.prun 0 (List.replicate 26 .ctl) hfin
  have hnd : ∀ t, ¬ DepFailed (Ex.kenv Ex.pstore).store v t := by
    rintro t ⟨d, hd, _⟩
    have h' : d ∈ (Ex.pstore _).dependsOn := hd
    rw [Ex.pstore_deps] at h'; cases h'
  have ha : At Ex.tree ["a".toList] 10 := hat _ _ (by decide +kernel)
  have hy : At Ex.tree ["z".toList, "y".toList] 12 := hat _ _ (by decide +kernel)
  obtain ⟨doc, rep, h1, h2, h3, h4⟩ := C106_partial _ _ _ _ _ _ _ Ex.prun 0 (List.replicate 26 .ctl)
    hfin (fun i => i) (fun _ => ['1']) ['n'] ['s'] ⟨10, hself _ _ ha⟩
    (clean _ (by decide)) (clean _ (by decide)) (fun _ => clean _ (by decide)) (by
      have : ∀ e ∈ paths Ex.tree, (fullName e.1).all
          (fun c => c ≠ '"' && c ≠ '<' && c ≠ '&' && decide (32 ≤ c.toNat)) = true := by
        decide +kernel
      exact fun p t h => clean_of_all (this _ (hpaths p t h))) v hv hin (by
      have : ∀ e ∈ paths Ex.tree, ∀ c ∈ e.1, '/' ∉ c := by decide +kernel
      exact fun p t h => this _ (hpaths p t h)) (by
      intro t ht hd
      by_cases ho : OutOfDate (Ex.kenv Ex.pstore).store (Selected (Ex.kenv Ex.pstore).store Ex.tree []) t
      · obtain ⟨_, _, _, h⟩ := hv.ran t ht (hnd t) ho
        rw [h] at hd
        split at hd <;> cases hd
      · rw [hv.skip t ht (hnd t) ho] at hd
        cases hd)
  have hs : ∃ r ∈ (exec (execCfg Ex.pstore (Ex.kst Ex.pstore).dag 0) (List.replicate 26 .ctl)).erec.runs,
      r.t = 10 ∧ r.status = .fail := by decide +kernel
  have hs' : ∃ r ∈ (exec (execCfg Ex.pstore (Ex.kst Ex.pstore).dag 0) (List.replicate 26 .ctl)).erec.runs,
      r.t = 12 ∧ r.status = .skip := by decide +kernel
  obtain ⟨r, hr, e1, e2⟩ := hs
  obtain ⟨r', hr', e1', e2'⟩ := hs'
  refine ⟨doc, rep, hfin, h1, h2, h3, ?_, ?_⟩
  · refine (h4 _ 10 ha (hself _ _ ha)).2.2 ?_
    rw [← e1, hverd v hv r hr]; exact e2
  · refine (h4 _ 12 hy (hself _ _ hy)).1.2 (.inr ?_)
    rw [← e1', hverd v hv r' hr']; exact e2'

end Joque
