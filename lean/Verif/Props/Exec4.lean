import Verif.Props.Exec3

/-! # Properties of every execution: schedule independence, work conservation, visitor protocol -/

namespace Joque

/-! ## C07 -/

/-- `C2` is `C1` up to what must not matter: node addresses (`f` maps the nodes), edge order,
thread count, resources. -/
structure SameProblem (C1 C2 : Cfg) (f : Node → Node) : Prop where
  edges : ∀ k a b, HasEdge C1.dag k a b → HasEdge C2.dag k (f a) (f b)
  edges' : ∀ k a c, a ∈ C1.dag.nodes → HasEdge C2.dag k (f a) c → ∃ b, HasEdge C1.dag k a b ∧ f b = c
  ask : ∀ n ∈ C1.dag.nodes, C2.ask (f n) = C1.ask n
  outcome : ∀ n ∈ C1.dag.nodes, C2.outcome (f n) = C1.outcome n

/-- The status of a record is determined by the required tasks' records and the job. -/
theorem status_determined {C : Cfg} (hwf : C.dag.WF) (ms : List Move)
    {r : RunRecord} (hra : ∀ b, HasEdge C.dag .requires r.node b → AfterEdge C.dag r.node b)
    (hr : r ∈ recsOf (exec C ms).trace) :
    (r.status = .depf ↔ ∃ r2 ∈ recsOf (exec C ms).trace,
      HasEdge C.dag .requires r.node r2.node ∧ Bad r2) ∧
    (r.status = .depf → r.retcode = 0 ∧ r.output = []) ∧
    (r.status ≠ .depf → ¬ Stale C.dag C.ask r.node →
      r.status = .skip ∧ r.retcode = 0 ∧ r.output = []) ∧
    (r.status ≠ .depf → Stale C.dag C.ask r.node →
      (asyncLambda (C.outcome r.node)).retcode = some r.retcode ∧
      r.output = (asyncLambda (C.outcome r.node)).output ∧
      r.status = if r.retcode = 0 then .ok else .fail) := by
  obtain ⟨hI, hT⟩ := both_exec hwf ms
  have h6 := C06_status_meaning C hwf ms r hr
  have h8 := C08_executed_iff_stale C hwf ms r hr
  have hr' := hr
  rw [hT.recs] at hr'
  have hb := (began_of_status hT hr').1
  refine ⟨⟨fun h => C05_only_if C hwf ms r hr h, ?_⟩, ?_, ?_, ?_⟩
  · rintro ⟨r2, hr2, hreq, hbad⟩
    exact (C05_failed_dependency C hwf ms r.node r2.node hreq (hra _ hreq) r2 hr2 rfl hbad).2 r hr rfl
  · intro h; rw [h] at h6; exact h6.2
  · intro hd hs
    have : ¬ (r.status = .ok ∨ r.status = .fail) := fun h => hs ((h8 hd).1 (hb.2 h))
    have hst : r.status = .skip := by
      cases h : r.status <;> simp_all
    rw [hst] at h6
    exact ⟨hst, h6.2.1, h6.2.2.1⟩
  · intro hd hs
    have hok := hb.1 ((h8 hd).2 hs)
    obtain ⟨_, h2, h3, h4⟩ := (hI.recs r hr').ran hok
    refine ⟨h2, h3, ?_⟩
    by_cases h0 : r.retcode = 0
    · rw [if_pos h0]
      rcases hok with h | h
      · exact h
      · exact absurd h0 (h4.1 h)
    · rw [if_neg h0]; exact h4.2 h0

/-- `K` contains with a task everything it requires or is invalidated by, and there the two problems are the
same: requirements, invalidations, answers and jobs of corresponding tasks. -/
structure SameCone (C1 C2 : Cfg) (f : Node → Node) (K : Node → Prop) : Prop where
  inside : ∀ n, K n → n ∈ C1.dag.nodes
  closed : ∀ k a b, K a → k ≠ .after → HasEdge C1.dag k a b → K b
  edges : ∀ k a b, K a → k ≠ .after → HasEdge C1.dag k a b → HasEdge C2.dag k (f a) (f b)
  edges' : ∀ k a c, K a → k ≠ .after → HasEdge C2.dag k (f a) c → ∃ b, HasEdge C1.dag k a b ∧ f b = c
  ask : ∀ n, K n → C2.ask (f n) = C1.ask n
  outcome : ∀ n, K n → C2.outcome (f n) = C1.outcome n

theorem SameCone.stale {C1 C2 : Cfg} {f : Node → Node} {K : Node → Prop} (h : SameCone C1 C2 f K)
    {n : Node} (hn : K n) :
    Stale C1.dag C1.ask n ↔ Stale C2.dag C2.ask (f n) := by
  constructor
  · rintro ⟨m, hm, log, hl⟩
    have : K m ∧ Relation.ReflTransGen (HasEdge C2.dag .invalidatedBy) (f n) (f m) := by
      clear hl
      induction hm with
      | refl => exact ⟨hn, .refl⟩
      | tail _ hc ih => exact ⟨h.closed _ _ _ ih.1 (by simp) hc, ih.2.tail (h.edges _ _ _ ih.1 (by simp) hc)⟩
    exact ⟨f m, this.2, log, by rw [h.ask m this.1]; exact hl⟩
  · rintro ⟨m', hm, log, hl⟩
    have : ∃ m, K m ∧ f m = m' ∧ Relation.ReflTransGen (HasEdge C1.dag .invalidatedBy) n m := by
      clear hl
      induction hm with
      | refl => exact ⟨n, hn, rfl, .refl⟩
      | tail _ hc ih =>
        obtain ⟨m, h1, rfl, h3⟩ := ih
        obtain ⟨b, hb, rfl⟩ := h.edges' _ _ _ h1 (by simp) hc
        exact ⟨b, h.closed _ _ _ h1 (by simp) hb, rfl, h3.tail hb⟩
    obtain ⟨m, h1, rfl, h3⟩ := this
    exact ⟨m, h3, log, by rw [← h.ask m h1]; exact hl⟩

/-- **C07**, for a part of the tasks: the records of corresponding tasks agree if what they require or are
invalidated by, directly or indirectly, is the same in both; the rest of the two problems, also the order in
which tasks are to be executed, may be different. -/
theorem C07_local (C1 C2 : Cfg) (f : Node → Node) (K : Node → Prop) (hwf1 : C1.dag.WF)
    (hwf2 : C2.dag.WF) (hs : SameCone C1 C2 f K)
    (hra : ∀ a b, K a → HasEdge C1.dag .requires a b → AfterEdge C1.dag a b)
    (hra2 : ∀ a b, K a → HasEdge C2.dag .requires (f a) b → AfterEdge C2.dag (f a) b)
    (ms1 ms2 : List Move) (r1 r2 : RunRecord) (h1 : r1 ∈ recsOf (exec C1 ms1).trace)
    (h2 : r2 ∈ recsOf (exec C2 ms2).trace) (hn : r2.node = f r1.node) (hK : K r1.node) :
    r1.status = r2.status ∧ r1.retcode = r2.retcode ∧ r1.output = r2.output := by
  classical
  obtain ⟨hI1, hT1⟩ := both_exec hwf1 ms1
  obtain ⟨hI2, hT2⟩ := both_exec hwf2 ms2
  -- the dag is acyclic: something was recorded
  have hac : ¬ ∃ n, Relation.TransGen (AfterEdge C1.dag) n n := by
    intro hc
    obtain ⟨er, m, hm⟩ := mem_recsOf.1 h1
    rcases prologue_spec hwf1 with ⟨_, c, _, hp, ht⟩ | ⟨h, _⟩ | ⟨h, _⟩
    · obtain ⟨_, h⟩ := stuck_exec hp (.inr ⟨_, rfl⟩) ms1
      rcases h with h | ⟨h, _⟩ | ⟨h, _⟩ | ⟨_, h, _⟩
      · rw [h] at hm; cases hm
      · rw [h] at hm; cases hm
      · rw [h, ht] at hm; simp at hm
      · have hm := h.subset hm
        rw [ht] at hm; simp at hm
    · exact h hc
    · exact h hc
  by_contra hcon
  -- a minimal record that disagrees
  let bad : RunRecord → Prop := fun r => K r.node ∧ ∃ r' ∈ recsOf (exec C2 ms2).trace, r'.node = f r.node ∧
    ¬ (r.status = r'.status ∧ r.retcode = r'.retcode ∧ r.output = r'.output)
  have hne : ((recsOf (exec C1 ms1).trace).filter (fun r => bad r)) ≠ [] := by
    intro h
    have : r1 ∈ (recsOf (exec C1 ms1).trace).filter (fun r => bad r) := by
      simp only [List.mem_filter, decide_eq_true_eq]
      exact ⟨h1, hK, r2, h2, hn, hcon⟩
    rw [h] at this; cases this
  obtain ⟨r, hr, hmin⟩ := exists_minimal
    (R := fun a b : RunRecord => AfterEdge C1.dag a.node b.node)
    (by
      rintro ⟨n, hn⟩
      exact hac ⟨n.node, Relation.TransGen.lift (p := AfterEdge C1.dag) RunRecord.node (fun _ _ h => h) _ _ hn⟩)
    _ _ (Nat.le_refl _) hne
  simp only [List.mem_filter, decide_eq_true_eq] at hr hmin
  obtain ⟨hr, hrn, r', hr', hn', hdis⟩ := hr
  apply hdis
  obtain ⟨d1, d2, d3, d4⟩ := status_determined hwf1 ms1 (fun b => hra _ b hrn) hr
  obtain ⟨e1, e2, e3, e4⟩ := status_determined hwf2 ms2 (by rw [hn']; exact fun b => hra2 _ b hrn) hr'
  -- required tasks agree
  have hagree : ∀ q ∈ recsOf (exec C1 ms1).trace, ∀ q' ∈ recsOf (exec C2 ms2).trace,
      HasEdge C1.dag .requires r.node q.node → q'.node = f q.node → (Bad q ↔ Bad q') := by
    intro q hq q' hq' hreq hqn
    have : q.status = q'.status := by
      by_contra hc
      exact hmin q ⟨hq, hs.closed _ _ _ hrn (by simp) hreq, q', hq', hqn, fun h => hc h.1⟩ (hra _ _ hrn hreq)
    unfold Bad; rw [this]
  have hdep : r.status = .depf ↔ r'.status = .depf := by
    rw [d1, e1]
    constructor
    · rintro ⟨q, hq, hreq, hb⟩
      have hreq' := hs.edges _ _ _ hrn (by simp) hreq
      have haft' := hra2 _ _ hrn hreq'
      rw [← hn'] at hreq' haft'
      have hr'' := hr'; rw [hT2.recs] at hr''
      obtain ⟨q', hq', hqn⟩ := recorded_of_done hI2 hT2 ((hI2.recs r' hr'').preds _ haft')
      exact ⟨q', hq', by rw [hqn]; exact hreq', (hagree q hq q' hq' hreq hqn).1 hb⟩
    · rintro ⟨q', hq', hreq', hb⟩
      rw [hn'] at hreq'
      obtain ⟨b, hb1, hb2⟩ := hs.edges' _ _ _ hrn (by simp) hreq'
      have hr'' := hr; rw [hT1.recs] at hr''
      obtain ⟨q, hq, hqn⟩ := recorded_of_done hI1 hT1 ((hI1.recs r hr'').preds _ (hra _ _ hrn hb1))
      have hreq : HasEdge C1.dag .requires r.node q.node := by rw [hqn]; exact hb1
      exact ⟨q, hq, hreq, (hagree q hq q' hq' hreq (by rw [hqn]; exact hb2.symm)).2 hb⟩
  by_cases hd : r.status = .depf
  · have hd' := hdep.1 hd
    obtain ⟨a, b⟩ := d2 hd
    obtain ⟨a', b'⟩ := e2 hd'
    exact ⟨hd.trans hd'.symm, a.trans a'.symm, b.trans b'.symm⟩
  · have hd' : r'.status ≠ .depf := fun h => hd (hdep.2 h)
    by_cases hst : Stale C1.dag C1.ask r.node
    · have hst' := (hs.stale hrn).1 hst
      rw [← hn'] at hst'
      obtain ⟨a, b, c⟩ := d4 hd hst
      obtain ⟨a', b', c'⟩ := e4 hd' hst'
      rw [hn', hs.outcome _ hrn] at a' b'
      have hrc : r.retcode = r'.retcode := by rw [a] at a'; injection a'
      exact ⟨by rw [c, c', hrc], hrc, b.trans b'.symm⟩
    · have hst' : ¬ Stale C2.dag C2.ask r'.node := by
        rw [hn']; exact fun h => hst ((hs.stale hrn).2 h)
      obtain ⟨a, b, c⟩ := d3 hd hst
      obtain ⟨a', b', c'⟩ := e3 hd' hst'
      exact ⟨a.trans a'.symm, b.trans b'.symm, c.trans c'.symm⟩

/-- **C07**.  The records of corresponding tasks in *any* two executions of the same problem agree
on status, return code and output: whatever the schedules, thread counts, resources, node
addresses and edge order, and even if the executions are unfinished. -/
theorem C07_schedule_independence (C1 C2 : Cfg) (f : Node → Node) (hwf1 : C1.dag.WF)
    (hwf2 : C2.dag.WF) (hs : SameProblem C1 C2 f)
    (hra : ∀ a b, HasEdge C1.dag .requires a b → AfterEdge C1.dag a b)
    (hra2 : ∀ a b, HasEdge C2.dag .requires a b → AfterEdge C2.dag a b)
    (ms1 ms2 : List Move) (r1 r2 : RunRecord) (h1 : r1 ∈ recsOf (exec C1 ms1).trace)
    (h2 : r2 ∈ recsOf (exec C2 ms2).trace) (hn : r2.node = f r1.node) :
    r1.status = r2.status ∧ r1.retcode = r2.retcode ∧ r1.output = r2.output := by
  refine C07_local C1 C2 f (· ∈ C1.dag.nodes) hwf1 hwf2
    ⟨fun _ h => h, fun k a b _ _ h => (hwf1.closed _ h).2, fun k a b _ _ => hs.edges k a b,
      fun k a c h _ => hs.edges' k a c h, hs.ask, hs.outcome⟩
    (fun a b _ => hra a b) (fun a b _ => hra2 _ b) ms1 ms2 r1 r2 h1 h2 hn
    ((C02_no_double_record C1 hwf1 ms1).2 r1 h1)

/-- the same tasks at other addresses, on the control thread instead of two threads -/
example : SameProblem (Ex.cfg 2)
    { Ex.cfg 0 with
      dag := { nodes := [10, 9, 8, 7, 6]
               edges := [⟨8, 10, .requires⟩, ⟨8, 10, .after⟩, ⟨8, 9, .after⟩, ⟨9, 7, .after⟩,
                 ⟨8, 10, .invalidatedBy⟩]
               name := fun _ => [], task := fun n => n }
      ask := fun n => (Ex.cfg 0).ask (11 - n)
      outcome := fun n => (Ex.cfg 0).outcome (11 - n) } (fun n => 11 - n) := by
  constructor
  · intro k a b h
    change (⟨a, b, k⟩ : Edge) ∈ Ex.dag.edges at h
    simp [Ex.dag] at h
    rcases h with ⟨rfl, rfl, rfl⟩ | ⟨rfl, rfl, rfl⟩ | ⟨rfl, rfl, rfl⟩ | ⟨rfl, rfl, rfl⟩ |
      ⟨rfl, rfl, rfl⟩ <;> simp [HasEdge]
  · intro k a c ha h
    change a ∈ [5, 4, 3, 2, 1] at ha
    simp [HasEdge] at h
    simp [HasEdge, Ex.cfg, Ex.dag]
    simp at ha
    rcases ha with rfl | rfl | rfl | rfl | rfl <;> simp at h
    · rcases h with ⟨rfl, rfl⟩ | ⟨rfl, rfl⟩ | ⟨rfl, rfl⟩ | ⟨rfl, rfl⟩
      · exact ⟨1, by simp⟩
      · exact ⟨1, by simp⟩
      · exact ⟨2, by simp⟩
      · exact ⟨1, by simp⟩
    · obtain ⟨rfl, rfl⟩ := h
      exact ⟨4, by simp⟩
  · intro n hn
    change n ∈ [5, 4, 3, 2, 1] at hn
    simp at hn
    rcases hn with rfl | rfl | rfl | rfl | rfl <;> rfl
  · intro n hn
    change n ∈ [5, 4, 3, 2, 1] at hn
    simp at hn
    rcases hn with rfl | rfl | rfl | rfl | rfl <;> rfl

/-! ## C14 -/

/-- `n`'s job was handed to a worker and its record is not there yet. -/
def InFlight (tr : List Event) (n : Node) : Prop := .launch n ∈ tr ∧ ¬ Recorded tr n

/-- Judging by the history, task `n` may be started: nothing happened to it yet, everything it is
ordered after has its record, and no job in flight has a common resource with it. -/
structure CanStart (C : Cfg) (tr : List Event) (n : Node) : Prop where
  node : n ∈ C.dag.nodes
  fresh : life n tr = []
  preds : ∀ m, AfterEdge C.dag n m → Recorded tr m
  free : ∀ m, InFlight tr m → ∀ r ∈ C.resources n, r ∉ C.resources m

theorem launch_mem_life {tr : List Event} {n : Node} :
    Event.launch n ∈ tr ↔ Tag.launch ∈ life n tr := by
  constructor
  · intro h
    exact List.mem_filterMap.2 ⟨_, h, by simp [tagOf]⟩
  · intro h
    obtain ⟨e, he, ht⟩ := List.mem_filterMap.1 h
    unfold tagOf at ht
    split at ht <;> (try split at ht) <;> simp at ht
    rename_i m hm; subst hm; exact he

theorem inFlight_iff {C : Cfg} {s : St} (_hI : Inv C s) (hT : TInv C s) {n : Node} :
    InFlight s.trace n ↔ ∃ h ∈ handles s, h.node = n ∧ h.launched = true := by
  rw [InFlight, launch_mem_life, after_mem_life]
  constructor
  · rintro ⟨h1, h2⟩
    by_cases hn : n ∈ allNodes s
    · unfold allNodes at hn
      simp only [List.mem_append] at hn
      rcases hn with (hn | hn) | hn
      · obtain ⟨x, hx, rfl⟩ := List.mem_map.1 hn
        cases hl : x.launched
        · rcases hT.lifeFresh x hx hl with h | ⟨_, h | ⟨_, h | h⟩⟩ <;> rw [h] at h1 <;> simp at h1
        · exact ⟨x, hx, rfl, hl⟩
      · obtain ⟨r, hr, rfl⟩ := List.mem_map.1 hn
        exfalso; apply h2
        rw [hT.lifeRec r hr]
        obtain ⟨x, hx, _⟩ := recLife_snoc C.threadCount r.status
        rw [hx]; simp
      · rw [hT.lifeTp n hn] at h1; cases h1
    · rcases hT.lifeOther n hn with h | ⟨_, h⟩ <;> rw [h] at h1 <;> simp at h1
  · rintro ⟨x, hx, rfl, hl⟩
    rcases hT.lifeLaunched x hx hl with h | ⟨_, _, h⟩ <;> rw [h]
    · cases s.worker x.node <;> simp [workerLife]
    · simp [workerLife]

theorem recorded_iff {C : Cfg} {s : St} (hI : Inv C s) (hT : TInv C s) {n : Node} :
    Recorded s.trace n ↔ s.flags.done n = true := by
  rw [hI.doneIff, Recorded, hT.recs]
  simp [recNodes]

theorem canStart_iff {C : Cfg} {s : St} (hI : Inv C s) (hT : TInv C s) (hp : s.phase = .pick)
    {n : Node} : CanStart C s.trace n ↔
      n ∈ s.toProcess ∧ Eligible C.dag C.resources s.flags s.used n := by
  have hact : s.phase.active = true := by rw [hp]; rfl
  have hk := (hI.notClean hact (by rw [hp]; rfl)).1
  have hall : ∀ h ∈ handles s, h.launched = true := by
    intro h hh
    simp only [handles, hk, List.nil_append] at hh
    obtain ⟨sl, hsl, rfl⟩ := List.mem_map.1 hh
    exact hI.pickLaunched hp sl hsl
  have hnd := hI.nodup
  unfold allNodes at hnd
  rw [List.nodup_append] at hnd
  constructor
  · intro h
    have hn : n ∈ s.toProcess := by
      have := hI.part hact n h.node
      unfold allNodes at this
      simp only [List.mem_append] at this
      rcases this with (hn | hn) | hn
      · obtain ⟨x, hx, rfl⟩ := List.mem_map.1 hn
        have h1 := hT.life_launched hact hx (hall x hx)
        rw [h.fresh] at h1
        cases hw : s.worker x.node <;> rw [hw] at h1 <;> simp [workerLife] at h1
      · obtain ⟨r, hr, rfl⟩ := List.mem_map.1 hn
        have h1 := hT.lifeRec r hr
        obtain ⟨x, hx, _⟩ := recLife_snoc C.threadCount r.status
        rw [h.fresh, hx] at h1; simp at h1
      · exact hn
    refine ⟨hn, hI.tpIdle n hn, ?_, ?_, ?_⟩
    · cases hd : s.flags.done n
      · rfl
      · exact absurd rfl (hnd.2.2 n (List.mem_append_right _ ((hI.doneIff n).1 hd)) n hn)
    · intro m hm; exact (recorded_iff hI hT).1 (h.preds m hm)
    · intro r hr hu
      obtain ⟨x, hx, hl, hrx⟩ := hI.usedSub hact r hu
      exact h.free x.node ((inFlight_iff hI hT).2 ⟨x, hx, rfl, hl⟩) r hr hrx
  · rintro ⟨hn, hE⟩
    refine ⟨hI.tp_nodes n hn, hT.lifeTp n hn, ?_, ?_⟩
    · intro m hm; exact (recorded_iff hI hT).2 (hE.predsDone m hm)
    · rintro m hm r hr hrm
      obtain ⟨x, hx, rfl, hl⟩ := (inFlight_iff hI hT).1 hm
      exact hE.resFree r hr ((hI.launched x hx hl).2.2.2.2.1 r hrm)

/-- **C14**, part 1.  Whenever the engine looks for work, it schedules some task that can start;
if it schedules none, then the thread limit is reached (`thread_count` jobs are in flight) or no
task can start. -/
theorem C14_work_conserving (C : Cfg) (hwf : C.dag.WF) (ms : List Move)
    (hp : (exec C ms).phase = .pick) :
    let s := exec C ms
    let s' := exec C (ms ++ [.ctl])
    (∃ n, CanStart C s.trace n ∧ s'.toProcess = s.toProcess.filter (· ≠ n) ∧
      s'.todo = s.todo ++ [⟨n, { node := n, launched := false, start := 0 }⟩]) ∨
    (s'.toProcess = s.toProcess ∧ s'.todo = s.todo ∧
      ((C.threadCount ≠ 0 ∧ ∃ l : List Node, l.Nodup ∧ l.length = C.threadCount ∧
          ∀ n ∈ l, InFlight s.trace n) ∨
        ∀ n, ¬ CanStart C s.trace n)) := by
  obtain ⟨hI, hT⟩ := both_exec hwf ms
  have hact : (exec C ms).phase.active = true := by rw [hp]; rfl
  have hk := (hI.notClean hact (by rw [hp]; rfl)).1
  simp only
  rw [exec_append]
  simp only [List.foldl, step, ctlStep, hp]
  unfold pickStep
  split
  · rename_i hcap
    refine .inr ⟨rfl, rfl, .inl ⟨hcap.2, (handles (exec C ms)).map Handle.node, ?_, ?_, ?_⟩⟩
    · have hnd := hI.nodup
      unfold allNodes at hnd
      rw [List.append_assoc, List.nodup_append] at hnd
      exact hnd.1
    · have h1 := hI.cap hcap.2
      have h2 : (handles (exec C ms)).length = (exec C ms).todo.length := by
        simp [handles, hk]
      rw [List.length_map]; omega
    · intro n hn
      obtain ⟨x, hx, rfl⟩ := List.mem_map.1 hn
      refine (inFlight_iff hI hT).2 ⟨x, hx, rfl, ?_⟩
      simp only [handles, hk, List.nil_append] at hx
      obtain ⟨sl, hsl, rfl⟩ := List.mem_map.1 hx
      exact hI.pickLaunched hp sl hsl
  · obtain ⟨r, hr, h1, h2⟩ := findCandidate_spec (res := C.resources) (f := (exec C ms).flags)
      (used := (exec C ms).used) hwf hI.tp_nodes
    rw [hr]
    cases r with
    | some n =>
      left
      refine ⟨n, ?_, rfl, rfl⟩
      obtain ⟨hE, hn⟩ := h1 n rfl
      refine (canStart_iff hI hT hp).2 ⟨?_, hE⟩
      have := hI.part hact n hn
      unfold allNodes at this
      simp only [List.mem_append] at this
      rcases this with (hn | hn) | hn
      · exfalso
        obtain ⟨x, hx, rfl⟩ := List.mem_map.1 hn
        have hl : x.launched = true := by
          simp only [handles, hk, List.nil_append] at hx
          obtain ⟨sl, hsl, rfl⟩ := List.mem_map.1 hx
          exact hI.pickLaunched hp sl hsl
        have := (hI.launched x hx hl).1
        rw [hE.notStarted] at this; cases this
      · have := (hI.doneIff n).2 hn
        rw [hE.notDone] at this; cases this
      · exact hn
    | none =>
      right
      have hno : ∀ n, ¬ CanStart C (exec C ms).trace n := by
        intro n hn
        obtain ⟨a, b⟩ := (canStart_iff hI hT hp).1 hn
        exact h2 rfl n a b
      simp only
      split
      · exact ⟨rfl, rfl, .inr hno⟩
      · exact ⟨rfl, rfl, .inr hno⟩

/-- **C14**, part 2.  At most one task is started per tick: between two `before_run` the execution
was resumed. -/
theorem C14_one_start_per_tick (C : Cfg) (hwf : C.dag.WF) (ms : List Move)
    (pre mid post : List Event) (er er' : ExecRecord) (n n' : Node)
    (htr : (exec C ms).trace = pre ++ .beforeRun er n :: mid ++ .beforeRun er' n' :: post) :
    .resumed ∈ mid := by
  have hT := tinv_exec hwf ms
  have hg := hT.always (pre ++ .beforeRun er n :: mid) _ post htr
  exact hg.2.2.2.2 pre er n mid rfl

/-- `to_process` only shrinks -/
theorem toProcess_ctl {C : Cfg} {s : St} {ok : Bool} (h : s.phase ≠ .created) :
    ∀ n ∈ (ctlStep C s ok).toProcess, n ∈ s.toProcess := by
  have hcoll : ∀ (s : St) ref h rest, (collect C s ref h rest).toProcess = s.toProcess := by
    intro s ref h rest
    unfold collect; simp only; split
    · rfl
    · simp only [complete]; split <;> rfl
  intro n
  unfold ctlStep
  split
  · rename_i hp; exact absurd hp h
  · split <;> exact id
  · unfold cleanStep
    split
    · exact id
    · split
      · unfold startRun; simp only
        split
        · exact id
        · split
          · exact id
          · split
            · exact id
            · split
              · rw [hcoll]; exact id
              · split <;> exact id
      · split
        · rw [hcoll]; exact id
        · exact id
  · unfold pickStep
    split
    · exact id
    · split
      · exact id
      · intro hn; exact (List.mem_filter.1 hn).1
      · split <;> exact id
  · exact id
  · split <;> exact id
  · split <;> exact id
  · split <;> exact id
  all_goals exact id

theorem toProcess_shrinks {C : Cfg} (ms : List Move) : ∀ {s : St}, s.phase ≠ .created →
    (ms.foldl (step C) s).phase ≠ .created ∧
    ∀ n ∈ (ms.foldl (step C) s).toProcess, n ∈ s.toProcess := by
  induction ms with
  | nil => intro s h; exact ⟨h, fun n hn => hn⟩
  | cons m ms ih =>
    intro s h
    have hstep : (step C s m).phase ≠ .created ∧ ∀ n ∈ (step C s m).toProcess, n ∈ s.toProcess := by
      have hctl : ∀ ok, (ctlStep C s ok).phase ≠ .created := by
        intro ok hc
        unfold ctlStep at hc
        split at hc <;> rename_i hp
        · exact h hp
        · split at hc <;> cases hc
        · rename_i d
          rcases phase_cleanStep (C := C) (ok := ok) hp with h1 | h1 | h1 | ⟨h1, _⟩ | ⟨h1, _⟩ <;>
            rw [hc] at h1 <;> (try cases h1)
          split at h1 <;> cases h1
        · rcases phase_pickStep (C := C) (s := s) with h1 | h1 | h1 <;> rw [hc] at h1 <;> cases h1
        · split at hc <;> cases hc
        · split at hc <;> cases hc
        · split at hc
          · cases hc
          · rw [hp] at hc; cases hc
        · split at hc
          · cases hc
          · rw [hp] at hc; cases hc
        all_goals first | (cases hc; done) | (rw [hp] at hc; cases hc)
      cases m with
      | ctl => exact ⟨hctl true, toProcess_ctl h⟩
      | ctlFail => exact ⟨hctl false, toProcess_ctl h⟩
      | fault f =>
        show (faultStep C s f).phase ≠ _ ∧ ∀ n ∈ (faultStep C s f).toProcess, _
        rcases fault_cases C s f with h1 | ⟨_, _, _, _, _, _, _, h1⟩ | ⟨_, _, _, _, _, _, _, h1⟩ |
          ⟨_, _, h1⟩ <;> rw [h1]
        · exact ⟨hctl true, toProcess_ctl h⟩
        · exact ⟨by simp, toProcess_ctl h⟩
        · exact ⟨by simp, fun _ h => h⟩
        · exact ⟨by simp, fun _ h => h⟩
      | begin n => simp only [step]; split <;> (try split) <;> exact ⟨h, fun _ h => h⟩
      | finish n => simp only [step]; split <;> (try split) <;> exact ⟨h, fun _ h => h⟩
      | destroy =>
        simp only [step, destroyStep]
        split <;> first | exact ⟨h, fun _ h => h⟩ | exact ⟨by simp, fun _ h => h⟩
    obtain ⟨h1, h2⟩ := ih hstep.1
    exact ⟨h1, fun n hn => hstep.2 n (h2 n hn)⟩

/-- **C14**, part 3.  The task the engine schedules is started by the next tick: by the time the
engine looks for work again, or finishes, `before_run` was called for it. -/
theorem C14_scheduled_is_started (C : Cfg) (hwf : C.dag.WF) (ms ms' : List Move) (n : Node)
    (hp : (exec C ms).phase = .pick)
    (hn : (exec C (ms ++ [.ctl])).toProcess = (exec C ms).toProcess.filter (· ≠ n))
    (hin : n ∈ C.dag.nodes)
    (hp' : (exec C (ms ++ [.ctl] ++ ms')).phase = .pick ∨
      (exec C (ms ++ [.ctl] ++ ms')).phase = .finished) :
    ∃ er, .beforeRun er n ∈ (exec C (ms ++ [.ctl] ++ ms')).trace := by
  obtain ⟨hI, hT⟩ := both_exec hwf (ms ++ [.ctl] ++ ms')
  have hact : (exec C (ms ++ [.ctl] ++ ms')).phase.active = true := by
    rcases hp' with h | h <;> rw [h] <;> rfl
  have hk := (hI.notClean hact (by rcases hp' with h | h <;> rw [h] <;> rfl)).1
  have hcr : (exec C (ms ++ [.ctl])).phase ≠ .created := by
    have h1 : (exec C ms).phase ≠ .created := by rw [hp]; simp
    have := (toProcess_shrinks (C := C) [.ctl] h1).1
    rw [exec_append]; exact this
  have hnt : n ∉ (exec C (ms ++ [.ctl] ++ ms')).toProcess := by
    intro h
    rw [exec_append] at h
    have := (toProcess_shrinks ms' hcr).2 n h
    rw [hn] at this; simp at this
  have key : Tag.before ∈ life n (exec C (ms ++ [.ctl] ++ ms')).trace := by
    have := hI.part hact n hin
    unfold allNodes at this
    simp only [List.mem_append] at this
    rcases this with (h | h) | h
    · obtain ⟨x, hx, rfl⟩ := List.mem_map.1 h
      rcases hp' with hp' | hp'
      · have hl : x.launched = true := by
          simp only [handles, hk, List.nil_append] at hx
          obtain ⟨sl, hsl, rfl⟩ := List.mem_map.1 hx
          exact hI.pickLaunched hp' sl hsl
        rw [hT.life_launched hact hx hl]
        cases (exec C (ms ++ [.ctl] ++ ms')).worker x.node <;> simp [workerLife]
      · simp only [handles, hk, hI.finishedEmpty hp'] at hx; simp at hx
    · obtain ⟨r, hr, rfl⟩ := List.mem_map.1 h
      rw [hT.lifeRec r hr]
      cases r.status <;> simp [recLife] <;> split <;> simp
    · exact absurd h hnt
  obtain ⟨e, he, ht⟩ := List.mem_filterMap.1 key
  unfold tagOf at ht
  split at ht <;> (try split at ht) <;> simp at ht
  rename_i er m hm; subst hm; exact ⟨er, he⟩

/-- both outcomes occur: at portion 3 task 1 is scheduled, at portion 16 task 2 has to wait for
the resource it shares with task 1 -/
example : (exec (Ex.par 3) (List.replicate 3 .ctl)).phase = .pick ∧
    (exec (Ex.par 3) (List.replicate 4 .ctl)).toProcess = [2, 3] ∧
    (exec (Ex.par 3) (List.replicate 16 .ctl)).phase = .pick ∧
    (exec (Ex.par 3) (List.replicate 17 .ctl)).toProcess = [2] ∧
    (exec (Ex.par 3) (List.replicate 16 .ctl)).toProcess = [2] :=
  ⟨by decide +kernel, by decide +kernel, by decide +kernel, by decide +kernel, by decide +kernel⟩

end Joque
