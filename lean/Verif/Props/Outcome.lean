import Verif.Spec.Verdict
import Verif.Props.Dag2
import Verif.Props.Exec6
import Verif.Props.Coro
import Mathlib.Data.Nat.Find

/-! # What `exec(ts, …).run()` gives (C70) -/

namespace Joque

/-! ## From tasks to nodes -/

section
variable {E : BEnv} {ts : TaskSet} {univ visit : List TaskId} {order : List TaskId → List TaskId}
  {filter : Str} {s : BSt}

theorem Run.edge (h : Run E ts univ visit order filter s) {a b : Node} (ha : a ∈ s.dag.nodes)
    (hb : b ∈ s.dag.nodes) (k : EKind) :
    HasEdge s.dag k a b ↔ 0 < declared E.store k (s.dag.task a) (s.dag.task b) := by
  obtain ⟨fuel, h1, h2⟩ := h.built
  rw [← (C23_empty E ts univ visit order h.env fuel h1 filter s h2).1 a ha b hb k,
    List.count_pos_iff]
  rfl

theorem Run.ends (h : Run E ts univ visit order filter s) {a b : Node} {k : EKind}
    (he : HasEdge s.dag k a b) : a ∈ s.dag.nodes ∧ b ∈ s.dag.nodes :=
  (h.wf 0).closed _ he

theorem Run.req (h : Run E ts univ visit order filter s) (a b : Node)
    (he : HasEdge s.dag .requires a b) : AfterEdge s.dag a b := by
  obtain ⟨fuel, h1, h2⟩ := h.built
  exact (C23_empty E ts univ visit order h.env fuel h1 filter s h2).2.2 a b he

theorem Run.sel (h : Run E ts univ visit order filter s) {a : Node} (ha : a ∈ s.dag.nodes) :
    Selected E.store ts filter (s.dag.task a) :=
  (h.nodes.2 _).1 (List.mem_map_of_mem ha)

theorem Run.node (h : Run E ts univ visit order filter s) {t : TaskId}
    (ht : Selected E.store ts filter t) : ∃ a ∈ s.dag.nodes, s.dag.task a = t :=
  List.mem_map.1 ((h.nodes.2 t).2 ht)

theorem Run.taskInj (h : Run E ts univ visit order filter s) {a b : Node} (ha : a ∈ s.dag.nodes)
    (hb : b ∈ s.dag.nodes) (he : s.dag.task a = s.dag.task b) : a = b :=
  List.inj_on_of_nodup_map h.nodes.1 ha hb he

theorem Run.depSel (_ : Run E ts univ visit order filter s) {t d : TaskId}
    (ht : Selected E.store ts filter t) (hd : d ∈ (E.store t).dependsOn) :
    Selected E.store ts filter d := by
  obtain ⟨p, r, h1, h2, h3⟩ := ht
  exact ⟨p, r, h1, h2, h3.tail hd⟩

theorem Run.requires_iff (h : Run E ts univ visit order filter s) {a b : Node}
    (ha : a ∈ s.dag.nodes) (hb : b ∈ s.dag.nodes) :
    HasEdge s.dag .requires a b ↔ s.dag.task b ∈ (E.store (s.dag.task a)).dependsOn := by
  rw [h.edge ha hb]; exact List.count_pos_iff

theorem Run.after_iff (h : Run E ts univ visit order filter s) {a b : Node}
    (ha : a ∈ s.dag.nodes) (hb : b ∈ s.dag.nodes) :
    HasEdge s.dag .after a b ↔ (s.dag.task b ∈ (E.store (s.dag.task a)).dependsOn ∨
      s.dag.task b ∈ (E.store (s.dag.task a)).runAfter) := by
  rw [h.edge ha hb, ← List.count_pos_iff, ← List.count_pos_iff]
  simp only [declared]; omega

theorem Run.inval_iff (h : Run E ts univ visit order filter s) {a b : Node}
    (ha : a ∈ s.dag.nodes) (hb : b ∈ s.dag.nodes) :
    HasEdge s.dag .invalidatedBy a b ↔ (s.dag.task b ∈ (E.store (s.dag.task a)).dependsOn ∨
      s.dag.task b ∈ (E.store (s.dag.task a)).invalidatedBy) := by
  rw [h.edge ha hb, ← List.count_pos_iff, ← List.count_pos_iff]
  simp only [declared]; omega

theorem Run.cyclic_iff (h : Run E ts univ visit order filter s) :
    Cyclic s.dag ↔ OrderCycle E.store (Selected E.store ts filter) := by
  constructor
  · rintro ⟨n, hn⟩
    refine ⟨s.dag.task n, Relation.TransGen.lift s.dag.task (fun a b hab => ?_) _ _ hn⟩
    obtain ⟨ha, hb⟩ := h.ends hab
    exact ⟨h.sel ha, h.sel hb, (h.after_iff ha hb).1 hab⟩
  · rintro ⟨t, ht⟩
    have key : ∀ u, Relation.TransGen (OrderedAfter E.store (Selected E.store ts filter)) t u →
        ∀ a ∈ s.dag.nodes, s.dag.task a = t → ∃ b ∈ s.dag.nodes, s.dag.task b = u ∧
          Relation.TransGen (AfterEdge s.dag) a b := by
      intro u hu a ha hat
      induction hu with
      | single hb =>
        obtain ⟨b, hbn, rfl⟩ := h.node hb.2.1
        refine ⟨b, hbn, rfl, .single ((h.after_iff ha hbn).2 ?_)⟩
        rw [hat]; exact hb.2.2
      | tail _ hb ih =>
        obtain ⟨c, hc, rfl, hac⟩ := ih
        obtain ⟨b, hbn, rfl⟩ := h.node hb.2.1
        exact ⟨b, hbn, rfl, hac.tail ((h.after_iff hc hbn).2 hb.2.2)⟩
    have hsel : Selected E.store ts filter t := by
      cases ht using Relation.TransGen.head_induction_on with
      | single h => exact h.1
      | head h _ _ => exact h.1
    obtain ⟨a, ha, hat⟩ := h.node hsel
    obtain ⟨b, hb, hbt, hab⟩ := key t ht a ha hat
    rw [h.taskInj hb ha (hbt.trans hat.symm)] at hab
    exact ⟨a, hab⟩

theorem Run.selfStale_iff (_ : Run E ts univ visit order filter s) (tc : Nat) (a : Node) :
    SelfStale (execCfg E.store s.dag tc).ask a ↔ SaysStale E.store (s.dag.task a) := by
  unfold SelfStale SaysStale
  simp only [execCfg, Cfg.ofJobs]
  cases hj : (E.store (s.dag.task a)).job with
  | none => simp
  | some j => simp

theorem Run.stale_iff (h : Run E ts univ visit order filter s) (tc : Nat) {a : Node}
    (ha : a ∈ s.dag.nodes) :
    Stale s.dag (execCfg E.store s.dag tc).ask a ↔
      OutOfDate E.store (Selected E.store ts filter) (s.dag.task a) := by
  constructor
  · rintro ⟨m, hm, hs⟩
    refine ⟨s.dag.task m, ?_, (h.selfStale_iff tc m).1 hs⟩
    refine Relation.ReflTransGen.lift s.dag.task (fun x y hxy => ?_) _ _ hm
    obtain ⟨hx, hy⟩ := h.ends hxy
    exact ⟨h.sel hy, (h.inval_iff hx hy).1 hxy⟩
  · rintro ⟨u, hu, hs⟩
    have : ∃ b ∈ s.dag.nodes, s.dag.task b = u ∧
        Relation.ReflTransGen (HasEdge s.dag .invalidatedBy) a b := by
      clear hs
      induction hu with
      | refl => exact ⟨a, ha, rfl, .refl⟩
      | tail _ hb ih =>
        obtain ⟨c, hc, rfl, hac⟩ := ih
        obtain ⟨b, hbn, rfl⟩ := h.node hb.1
        exact ⟨b, hbn, rfl, hac.tail ((h.inval_iff hc hbn).2 hb.2)⟩
    obtain ⟨b, _, rfl, hb⟩ := this
    exact ⟨b, hb, (h.selfStale_iff tc b).2 hs⟩

/-- what the worker hands back is what the job yields -/
theorem yields_iff {j : Job} {rc : Int} {out : List Chunk} :
    Yields j rc out ↔ (asyncLambda j.run).retcode = some rc ∧ out = (asyncLambda j.run).output := by
  unfold Yields
  cases j.run with
  | ret rr => exact Iff.rfl
  | throwsStd w =>
    exact ⟨fun h => ⟨congrArg some h.1.symm, h.2⟩, fun h => ⟨(Option.some.inj h.1).symm, h.2⟩⟩
  | throwsOther =>
    exact ⟨fun h => ⟨congrArg some h.1.symm, h.2⟩, fun h => ⟨(Option.some.inj h.1).symm, h.2⟩⟩

end

theorem finished_answers {C : Cfg} (hwf : C.dag.WF) (ms : List Move)
    (hfin : (exec C ms).phase = .finished) :
    ¬ Cyclic C.dag ∧ ∀ n ∈ C.dag.nodes, C.hasJob n = true ∧ ∃ a, C.ask n = .answer a := by
  have hno : ∀ p0 : Phase, (p0 = .ub ∨ ∃ e, p0 = .unwinding e) →
      ¬ StuckSt C p0 (∃ f, .fault f ∈ ms) (exec C ms) := by
    rintro p0 hp0 ⟨_, h⟩
    rw [hfin] at h
    rcases h with h | ⟨_, h⟩ | ⟨_, h⟩ | ⟨_, _, h⟩
    · rw [h] at hfin; cases hfin
    · rcases h with h | h <;> cases h
    · rcases h with h | ⟨_, _, h⟩ | h | h | h
      · rw [← h] at hp0
        rcases hp0 with h | ⟨e, h⟩ <;> cases h
      · cases h
      · cases h
      · cases h
      · cases h
    · simp [visPhases] at h
  rcases prologue_spec hwf with ⟨hc, _⟩ | ⟨hn, ha, _⟩ | ⟨_, pre, n, post, _, _, _, _, hp⟩
  · exact absurd hfin ((C09_exact _ hwf ms).2 hc).1
  · exact ⟨hn, ha⟩
  · exfalso
    rcases hp with ⟨_, hp⟩ | ⟨_, w, _, hp⟩
    · exact hno _ (.inl rfl) (stuck_exec hp (.inl rfl) ms)
    · exact hno _ (.inr ⟨_, rfl⟩) (stuck_exec hp (.inr ⟨_, rfl⟩) ms)

/-- the verdict a record states -/
def RunRecord.verdict (r : RunRecord) : Verdict := ⟨r.status, r.retcode, r.output⟩

theorem Run.status (E : BEnv) (ts : TaskSet) (univ visit : List TaskId)
    (order : List TaskId → List TaskId) (filter : Str) (s : BSt)
    (h : Run E ts univ visit order filter s) (tc : Nat) (ms : List Move)
    (hfin : (exec (execCfg E.store s.dag tc) ms).phase = .finished) (v : TaskId → Verdict)
    (r : RunRecord) (hr : r ∈ (exec (execCfg E.store s.dag tc) ms).erec.runs)
    (hv : ∀ r' ∈ (exec (execCfg E.store s.dag tc) ms).erec.runs,
      AfterEdge s.dag r.node r'.node → v r'.t = r'.verdict) :
    (DepFailed E.store v r.t → r.verdict = ⟨.depf, 0, []⟩) ∧
    (¬ DepFailed E.store v r.t → ¬ OutOfDate E.store (Selected E.store ts filter) r.t →
      r.verdict = ⟨.skip, 0, []⟩) ∧
    (¬ DepFailed E.store v r.t → OutOfDate E.store (Selected E.store ts filter) r.t →
      ∃ j, (E.store r.t).job = some j ∧ Yields j r.retcode r.output ∧
        r.status = if r.retcode = 0 then .ok else .fail) := by
  have hwf := h.wf tc
  obtain ⟨hperm, hrec, _⟩ := C02_one_record _ hwf ms hfin
  have hT := tinv_exec hwf ms
  have hrn : r.node ∈ s.dag.nodes := hperm.mem_iff.1 (List.mem_map_of_mem hr)
  have hrt : r.t = s.dag.task r.node := (hrec r hr).1
  have hr' := hr
  rw [← hT.recs] at hr'
  have hd := status_determined hwf ms (fun b => h.req _ b) hr'
  have hdep : DepFailed E.store v r.t ↔ r.status = .depf := by
    rw [hd.1, hT.recs]
    constructor
    · rintro ⟨d, hd1, hd2⟩
      rw [hrt] at hd1
      obtain ⟨b, hb, rfl⟩ := h.node (h.depSel (h.sel hrn) hd1)
      obtain ⟨r2, hr2, hr2n⟩ := List.mem_map.1 (hperm.mem_iff.2 hb)
      have he : HasEdge s.dag .requires r.node r2.node := by
        rw [hr2n]; exact (h.requires_iff hrn hb).2 hd1
      refine ⟨r2, hr2, he, ?_⟩
      have := hv r2 hr2 (h.req _ _ he)
      rw [(hrec r2 hr2).1] at this
      rw [hr2n] at this
      have this : v (s.dag.task b) = r2.verdict := this
      rw [this] at hd2
      exact hd2
    · rintro ⟨r2, hr2, he, hbad⟩
      have he : HasEdge s.dag .requires r.node r2.node := he
      obtain ⟨_, hb⟩ := h.ends he
      refine ⟨s.dag.task r2.node, ?_, ?_⟩
      · rw [hrt]; exact (h.requires_iff hrn hb).1 he
      · have := hv r2 hr2 (h.req _ _ he)
        have h2 : r2.t = s.dag.task r2.node := (hrec r2 hr2).1
        rw [h2] at this
        rw [this]
        exact hbad
  have hst := h.stale_iff tc hrn
  rw [← hrt] at hst
  rw [hdep]
  refine ⟨fun h1 => ?_, fun h1 h2 => ?_, fun h1 h2 => ?_⟩
  · obtain ⟨h3, h4⟩ := hd.2.1 h1
    simp [RunRecord.verdict, h1, h3, h4]
  · obtain ⟨h3, h4, h5⟩ := hd.2.2.1 h1 (fun hh => h2 (hst.1 hh))
    simp [RunRecord.verdict, h3, h4, h5]
  · obtain ⟨h3, h4, h5⟩ := hd.2.2.2 h1 (hst.2 h2)
    have hjob : ∃ j, (E.store r.t).job = some j ∧
        (execCfg E.store s.dag tc).outcome r.node = j.run := by
      have hj : (execCfg E.store s.dag tc).hasJob r.node = true :=
        ((finished_answers hwf ms hfin).2 r.node hrn).1
      rw [hrt]
      simp only [execCfg, Cfg.ofJobs] at hj ⊢
      cases hjj : (E.store (s.dag.task r.node)).job with
      | none => rw [hjj] at hj; cases hj
      | some j => exact ⟨j, rfl, rfl⟩
    obtain ⟨j, hj1, hj2⟩ := hjob
    rw [hj2] at h3 h4
    exact ⟨j, hj1, yields_iff.2 ⟨h3, h4⟩, h5⟩

/-- **C70**, meaning of the result.  A finished execution of a task set has one record per selected
task, and the records are the one and only solution of the equations of `Verdicts`: whatever the
schedule, thread count, hash order and addresses. -/
theorem C70_meaning (E : BEnv) (ts : TaskSet) (univ visit : List TaskId)
    (order : List TaskId → List TaskId) (filter : Str) (s : BSt)
    (h : Run E ts univ visit order filter s) (tc : Nat) (ms : List Move)
    (hfin : (exec (execCfg E.store s.dag tc) ms).phase = .finished) :
    (∀ t, Selected E.store ts filter t → ∃ r ∈ (exec (execCfg E.store s.dag tc) ms).erec.runs,
      r.t = t) ∧
    (∀ v, Verdicts E.store (Selected E.store ts filter) v →
      ∀ r ∈ (exec (execCfg E.store s.dag tc) ms).erec.runs, v r.t = r.verdict) ∧
    ∃ v, Verdicts E.store (Selected E.store ts filter) v := by
  classical
  have hwf := h.wf tc
  obtain ⟨hperm, hrec, _⟩ := C02_one_record _ hwf ms hfin
  have hnd := C22_executed E ts univ visit order filter s h tc ms hfin
  have hall : ∀ t, Selected E.store ts filter t →
      ∃ r ∈ (exec (execCfg E.store s.dag tc) ms).erec.runs, r.t = t := by
    intro t ht
    obtain ⟨r, hr, hrt⟩ := List.mem_map.1 ((hnd.2 t).2 ht)
    exact ⟨r, hr, hrt⟩
  refine ⟨hall, ?_, ?_⟩
  · intro v hv r0 hr0
    by_contra hcon
    have hne : (exec (execCfg E.store s.dag tc) ms).erec.runs.filter
        (fun r => decide (v r.t ≠ r.verdict)) ≠ [] := by
      intro he
      have : r0 ∈ (exec (execCfg E.store s.dag tc) ms).erec.runs.filter
        (fun r => decide (v r.t ≠ r.verdict)) := by simp [hr0, hcon]
      rw [he] at this; cases this
    obtain ⟨r, hr, hmin⟩ := exists_minimal
      (R := fun a b : RunRecord => AfterEdge s.dag a.node b.node)
      (by
        rintro ⟨n, hn⟩
        exact (finished_answers hwf ms hfin).1 ⟨n.node,
          Relation.TransGen.lift (p := AfterEdge s.dag) RunRecord.node (fun _ _ h => h) _ _ hn⟩)
      _ _ (Nat.le_refl _) hne
    obtain ⟨hr, hbad⟩ := List.mem_filter.1 hr
    have hsel : Selected E.store ts filter r.t := (hnd.2 _).1 (List.mem_map_of_mem hr)
    obtain ⟨e1, e2, e3⟩ := Run.status E ts univ visit order filter s h tc ms hfin v r hr (by
      intro r' hr' he
      by_contra hc
      exact hmin r' (List.mem_filter.2 ⟨hr', by simpa using hc⟩) he)
    have hbad : v r.t ≠ r.verdict := by simpa using hbad
    apply hbad
    by_cases hd : DepFailed E.store v r.t
    · rw [hv.depf _ hsel hd, e1 hd]
    · by_cases ho : OutOfDate E.store (Selected E.store ts filter) r.t
      · obtain ⟨j, j1, j2, j3⟩ := hv.ran _ hsel hd ho
        obtain ⟨j', k1, k2, k3⟩ := e3 hd ho
        rw [j1] at k1
        cases k1
        rw [yields_iff] at j2 k2
        have hrc : (v r.t).retcode = r.retcode := Option.some.inj (j2.1.symm.trans k2.1)
        rw [hrc, ← k3] at j3
        have hout : (v r.t).output = r.output := j2.2.trans k2.2.symm
        cases hvv : v r.t with
        | mk a b c =>
          rw [hvv] at j3 hrc hout
          simp only at j3 hrc hout
          simp [RunRecord.verdict, j3, hrc, hout]
      · rw [hv.skip _ hsel hd ho, e2 hd ho]
  · let v : TaskId → Verdict := fun t =>
      if ht : ∃ r ∈ (exec (execCfg E.store s.dag tc) ms).erec.runs, r.t = t then ht.choose.verdict
      else ⟨.ok, 0, []⟩
    have hvr : ∀ r ∈ (exec (execCfg E.store s.dag tc) ms).erec.runs, v r.t = r.verdict := by
      intro r hr
      have ht : ∃ r' ∈ (exec (execCfg E.store s.dag tc) ms).erec.runs, r'.t = r.t := ⟨r, hr, rfl⟩
      have : v r.t = ht.choose.verdict := dif_pos ht
      rw [this, List.inj_on_of_nodup_map hnd.1 ht.choose_spec.1 hr ht.choose_spec.2]
    have hst := fun r hr => Run.status E ts univ visit order filter s h tc ms hfin v r hr
      (fun r' hr' _ => hvr r' hr')
    refine ⟨v, ?_, ?_, ?_⟩
    · intro t ht hd
      obtain ⟨r, hr, rfl⟩ := hall t ht
      rw [hvr r hr]; exact (hst r hr).1 hd
    · intro t ht hd ho
      obtain ⟨r, hr, rfl⟩ := hall t ht
      rw [hvr r hr]; exact (hst r hr).2.1 hd ho
    · intro t ht hd ho
      obtain ⟨r, hr, rfl⟩ := hall t ht
      rw [hvr r hr]; exact (hst r hr).2.2 hd ho

/-! ## `run()` -/

/-- What a resumption that ended in state `s` left behind: `none` if the control thread is not at a
suspension point. -/
def St.next (s : St) : Option Next :=
  match s.phase with
  | .susp _ => some .susp
  | .finished => some (.returned s.erec)
  | .threw e => some (.threw e)
  | _ => none

/-- the move is one of the thread that called `tick()` -/
def Move.isCtl : Move → Bool
  | .ctl | .ctlFail | .fault _ => true
  | _ => false

/-- what the resumptions of an execution left behind, one after the other -/
def resumptions (C : Cfg) : St → List Move → List Next
  | _, [] => []
  | s, m :: ms =>
    (if m.isCtl then (step C s m).next.toList else []) ++ resumptions C (step C s m) ms

/-- the execution is over -/
def St.over (s : St) : Bool :=
  match s.phase with
  | .finished | .threw _ => true
  | _ => false

theorem step_phase_of_not_ctl (C : Cfg) (s : St) (m : Move) (hm : m.isCtl = false)
    (hd : m ≠ .destroy) : (step C s m).phase = s.phase := by
  cases m with
  | ctl => cases hm
  | ctlFail => cases hm
  | fault f => cases hm
  | begin n => simp only [step]; split <;> (try split) <;> rfl
  | finish n => simp only [step]; split <;> (try split) <;> rfl
  | destroy => exact absurd rfl hd

/-- Until the execution is over every resumption leaves it suspended; the one that ends it leaves
the result. -/
theorem resumptions_spec (C : Cfg) : ∀ (ms : List Move) (s : St), s.over = false →
    .destroy ∉ ms → (∀ k < ms.length, ((ms.take k).foldl (step C) s).over = false) →
    ∃ k, resumptions C s ms = List.replicate k .susp ++
      (if (ms.foldl (step C) s).over then (ms.foldl (step C) s).next.toList else []) := by
  intro ms
  induction ms with
  | nil => intro s h _ _; exact ⟨0, by simp [resumptions, h]⟩
  | cons m ms ih =>
    intro s h hd hb
    by_cases hov : (step C s m).over = true
    · have hms : ms = [] := by
        cases ms with
        | nil => rfl
        | cons x xs =>
          have := hb 1 (by simp)
          simp only [List.take_succ_cons, List.take_zero, List.foldl] at this
          rw [this] at hov; cases hov
      subst hms
      have hc : m.isCtl = true := by
        by_contra hc
        have := step_phase_of_not_ctl C s m (by simpa using hc) (by rintro rfl; simp at hd)
        rw [St.over, this] at hov
        rw [St.over] at h
        rw [h] at hov; cases hov
      exact ⟨0, by simp [resumptions, hc, hov]⟩
    · have hov : (step C s m).over = false := by simpa using hov
      obtain ⟨k, hk⟩ := ih (step C s m) hov (fun h => hd (List.mem_cons_of_mem _ h)) (by
        intro k hk
        have := hb (k + 1) (by simpa using hk)
        simpa using this)
      rw [resumptions, hk]
      by_cases hc : m.isCtl = true ∧ (step C s m).next ≠ none
      · refine ⟨k + 1, ?_⟩
        have : (step C s m).next = some .susp := by
          revert hov hc
          unfold St.over St.next
          cases (step C s m).phase <;> simp
        rw [if_pos hc.1, this, List.replicate_succ]; rfl
      · refine ⟨k, ?_⟩
        have : (if m.isCtl then (step C s m).next.toList else []) = [] := by
          by_cases h1 : m.isCtl = true
          · have : (step C s m).next = none := by
              by_contra h2; exact hc ⟨h1, h2⟩
            simp [this]
          · simp [h1]
        rw [this, List.nil_append]
        rfl

/-- what `run()` does once the engine is in state `s` -/
def St.resultOut (s : St) : Option ResultOut :=
  match s.phase with
  | .finished => some (.ret (some s.erec))
  | .threw e => some (.throws e)
  | _ => none

/-- **C70**, the handle and the engine together: `run()` on a new execution returns exactly when
the engine has ended the execution – with the record it made, or rethrowing what ended it – and is
still waiting as long as it has not. -/
theorem C70_handle (C : Cfg) (ms : List Move) (hd : .destroy ∉ ms)
    (hb : ∀ k < ms.length, (exec C (ms.take k)).over = false) (w : World) (v f : Nat)
    (hv : w.live v = true) (hf : w.h v = some f) (hs : w.frame f = some .susp) :
    match (exec C ms).resultOut with
    | some r => ∃ w', w.run v (resumptions C St.init ms) = .returns w' r
    | none => ∃ w', w.run v (resumptions C St.init ms) = .blocked w' := by
  obtain ⟨k, hk⟩ := resumptions_spec C ms St.init rfl hd hb
  rw [hk]
  by_cases hov : (exec C ms).over = true
  · have hov' : (ms.foldl (step C) St.init).over = true := hov
    rw [if_pos hov']
    cases hp : (exec C ms).phase with
    | finished =>
      have hp' : (ms.foldl (step C) St.init).phase = .finished := hp
      obtain ⟨w', h1, _⟩ := (C20_run w v f hv hf k (.returned (exec C ms).erec) rfl []).1 hs
      simp only [St.resultOut, St.next, hp, hp']
      exact ⟨w', h1⟩
    | threw e =>
      have hp' : (ms.foldl (step C) St.init).phase = .threw e := hp
      obtain ⟨w', h1, _⟩ := (C20_run w v f hv hf k (.threw e) rfl []).1 hs
      simp only [St.resultOut, St.next, hp, hp']
      exact ⟨w', h1⟩
    | _ => rw [St.over, hp] at hov; cases hov
  · have hov' : ¬ (ms.foldl (step C) St.init).over = true := hov
    rw [if_neg hov', List.append_nil]
    have : (exec C ms).resultOut = none := by
      revert hov; unfold St.over St.resultOut
      cases (exec C ms).phase <;> simp
    rw [this]
    obtain ⟨_, _, _, _, _, h5⟩ := (C20_run w v f hv hf k (.threw .cycle) rfl []).1 hs
    exact h5

theorem dead_step (C : Cfg) (s : St) (m : Move) (h : s.phase.dead = true) : step C s m = s := by
  have hp : s.phase = .ub ∨ s.phase = .abort ∨ s.phase = .outOfFuel := by
    revert h; cases s.phase <;> simp [Phase.dead]
  have hctl : ∀ ok, ctlStep C s ok = s := by
    intro ok; unfold ctlStep
    rcases hp with hp | hp | hp <;> rw [hp]
  cases m with
  | ctl => exact hctl _
  | ctlFail => exact hctl _
  | fault f =>
    show faultStep C s f = s
    rw [fault_quiet C f (by rcases hp with hp | hp | hp <;> simp [hp])]
    exact hctl true
  | begin n => simp [step, h]
  | finish n => simp [step, h]
  | destroy => simp only [step, destroyStep]; rcases hp with hp | hp | hp <;> rw [hp]

theorem runSched_dead (C : Cfg) (σ : Nat → Move) (j k : Nat)
    (h : (runSched C σ j).phase.dead = true) : runSched C σ (j + k) = runSched C σ j := by
  induction k with
  | zero => rfl
  | succ k ih =>
    show step C (runSched C σ (j + k)) (σ (j + k)) = _
    rw [ih]; exact dead_step C _ _ h

/-- with a fair schedule the first two portions of the control thread happen -/
theorem fair_two {C : Cfg} {σ : Nat → Move} (hF : Fair C σ) :
    ∃ i, runSched C σ i = exec C [.ctl, .ctl] := by
  have hidle : ∀ (s : St) (m : Move), (∀ n, s.worker n = .idle) → m ≠ .ctl → m ≠ .ctlFail →
      m ≠ .destroy → (∀ f, m ≠ .fault f) → step C s m = s := by
    intro s m hs h1 h2 h3 h4
    cases m with
    | ctl => exact absurd rfl h1
    | ctlFail => exact absurd rfl h2
    | destroy => exact absurd rfl h3
    | fault f => exact absurd rfl (h4 f)
    | begin n => simp [step, hs n]
    | finish n => simp [step, hs n]
  -- from an idle state the next different state is the one after `ctl`
  have hnext : ∀ (s : St) (i : Nat), runSched C σ i = s → (∀ n, s.worker n = .idle) →
      ∃ j, runSched C σ j = step C s .ctl := by
    intro s i hi hs
    obtain ⟨j, hij, hj⟩ := hF.ticks i
    have : ∀ d i, i + d = j → runSched C σ i = s → ∃ j, runSched C σ j = step C s .ctl := by
      intro d
      induction d with
      | zero =>
        intro i hd hi
        have : i = j := by omega
        subst this
        exact ⟨i + 1, by show step C (runSched C σ i) (σ i) = _; rw [hi, hj]⟩
      | succ d ih =>
        intro i hd hi
        by_cases hc : σ i = .ctl
        · exact ⟨i + 1, by show step C (runSched C σ i) (σ i) = _; rw [hi, hc]⟩
        · refine ih (i + 1) (by omega) ?_
          show step C (runSched C σ i) (σ i) = _
          rw [hi]
          exact hidle s _ hs hc (hF.noFault i).1 (hF.noFault i).2.1 (hF.noFault i).2.2
    exact this (j - i) i (by omega) hi
  obtain ⟨j, hj⟩ := hnext St.init 0 rfl (fun _ => rfl)
  obtain ⟨_, _, _, t4, _⟩ := prologue_todo (C := C)
  exact hnext _ j hj (fun n => by
    show (prologue C St.init).worker n = .idle
    rw [t4])

/-- What the user has to provide: every selected task has a job, and no job returns a result whose
code was never set. -/
structure JobsOk (st : Store) (sel : TaskId → Prop) : Prop where
  set : ∀ t, sel t → (st t).job ≠ none
  codes : ∀ t, sel t → ∀ j rr, (st t).job = some j → j.run = .ret rr → rr.retcode ≠ none

/-- **C70**.  `exec(ts, tc, filter).run()`, with any fair schedule of the threads and whatever the
hash order, addresses and thread count.  It returns after finitely many steps (`i`), without
undefined behaviour or failed assertions before, and
* throws "Cycle detected" iff the declared order of the selected tasks has a cycle,
* otherwise rethrows what the `is_invalidated` of some selected task threw, iff there is such a
  task,
* otherwise returns a record with exactly one entry per selected task, and the entries are what the
  declared relations say (`Verdicts`). -/
theorem C70_run (E : BEnv) (ts : TaskSet) (univ visit : List TaskId)
    (order : List TaskId → List TaskId) (filter : Str) (s : BSt)
    (h : Run E ts univ visit order filter s) (tc : Nat)
    (hj : JobsOk E.store (Selected E.store ts filter)) (σ : Nat → Move)
    (hF : Fair (execCfg E.store s.dag tc) σ) :
    ∃ i, (∀ k < i, (runSched (execCfg E.store s.dag tc) σ k).over = false ∧
        (runSched (execCfg E.store s.dag tc) σ k).phase.dead = false) ∧
      (∀ (w : World) (v f : Nat), w.live v = true → w.h v = some f → w.frame f = some .susp →
        ∃ w' r, (runSched (execCfg E.store s.dag tc) σ i).resultOut = some r ∧
          w.run v (resumptions (execCfg E.store s.dag tc) St.init ((List.range i).map σ)) =
            .returns w' r) ∧
      ((OrderCycle E.store (Selected E.store ts filter) ∧
          (runSched (execCfg E.store s.dag tc) σ i).resultOut = some (.throws .cycle)) ∨
       (¬ OrderCycle E.store (Selected E.store ts filter) ∧
          ∃ t j what, Selected E.store ts filter t ∧ (E.store t).job = some j ∧
            j.isInvalidated = .throws what ∧
            (runSched (execCfg E.store s.dag tc) σ i).resultOut = some (.throws (.inval what))) ∨
       (¬ OrderCycle E.store (Selected E.store ts filter) ∧
          (∀ t, Selected E.store ts filter t → ∃ j a, (E.store t).job = some j ∧
            j.isInvalidated = .answer a) ∧
          ∃ rec, (runSched (execCfg E.store s.dag tc) σ i).resultOut = some (.ret (some rec)) ∧
            (rec.runs.map RunRecord.t).Nodup ∧
            (∀ t, t ∈ rec.runs.map RunRecord.t ↔ Selected E.store ts filter t) ∧
            rec.totalCount = rec.runs.length ∧
            ∀ v, Verdicts E.store (Selected E.store ts filter) v →
              ∀ r ∈ rec.runs, v r.t = r.verdict)) := by
  classical
  generalize hC : execCfg E.store s.dag tc = C at hF ⊢
  have hdag : C.dag = s.dag := by rw [← hC]; rfl
  have hwf : C.dag.WF := by rw [← hC]; exact h.wf tc
  have hhas : ∀ n ∈ C.dag.nodes, C.hasJob n = true := by
    intro n hn
    rw [hdag] at hn
    have := hj.set _ (h.sel hn)
    rw [← hC]
    simp only [execCfg, Cfg.ofJobs]
    exact Option.isSome_iff_ne_none.2 this
  have hjob : ∀ n ∈ C.dag.nodes, ∃ j, (E.store (s.dag.task n)).job = some j ∧
      C.ask n = j.isInvalidated ∧ C.outcome n = j.run := by
    intro n hn
    rw [hdag] at hn
    have := hj.set _ (h.sel hn)
    rw [← hC]
    simp only [execCfg, Cfg.ofJobs]
    cases hjj : (E.store (s.dag.task n)).job with
    | none => exact absurd hjj this
    | some j => exact ⟨j, rfl, rfl, rfl⟩
  have hcyc : Cyclic C.dag ↔ OrderCycle E.store (Selected E.store ts filter) := by
    rw [hdag]; exact h.cyclic_iff
  -- the execution ends
  have hend : ∃ i, (runSched C σ i).over = true := by
    by_cases hc : Cyclic C.dag
    · obtain ⟨i, hi⟩ := fair_two hF
      refine ⟨i, ?_⟩
      rw [hi, St.over, C09_detected C hwf hc]
    by_cases ht : ∃ n ∈ C.dag.nodes, ∃ w, C.ask n = .throws w
    · obtain ⟨_, _, w, _, _, h5, _⟩ := C18_inval_throws C hwf hc hhas ht
      obtain ⟨i, hi⟩ := fair_two hF
      refine ⟨i, ?_⟩
      rw [hi, St.over, h5]
    · have hG : Healthy C :=
        { wf := hwf
          acyclic := hc
          jobs := hhas
          answers := fun n hn => by
            cases ha : C.ask n with
            | answer a => exact ⟨a, rfl⟩
            | throws w => exact absurd ⟨n, hn, w, ha⟩ ht
          codes := fun n hn rr hrr => by
            obtain ⟨j, j1, _, j3⟩ := hjob n hn
            rw [j3] at hrr
            rw [hdag] at hn
            exact hj.codes _ (h.sel hn) j rr j1 hrr }
      obtain ⟨i, hi⟩ := C11_completes C hG σ hF
      exact ⟨i, by rw [St.over, hi]⟩
  let i := Nat.find hend
  have hover : (runSched C σ i).over = true := Nat.find_spec hend
  have hbefore : ∀ k < i, (runSched C σ k).over = false := fun k hk => by
    have := Nat.find_min hend hk
    simpa using this
  have hexec : runSched C σ i = exec C ((List.range i).map σ) := runSched_exec C σ i
  have hnf : .ctlFail ∉ (List.range i).map σ ∧ .destroy ∉ (List.range i).map σ ∧
      ∀ f, .fault f ∉ (List.range i).map σ := by
    refine ⟨fun hm => ?_, fun hm => ?_, fun k hm => ?_⟩ <;>
      obtain ⟨x, _, hx⟩ := List.mem_map.1 hm
    · exact (hF.noFault x).1 hx
    · exact (hF.noFault x).2.1 hx
    · exact (hF.noFault x).2.2 k hx
  refine ⟨i, fun k hk => ⟨hbefore k hk, ?_⟩, ?_, ?_⟩
  · by_contra hd
    have hd : (runSched C σ k).phase.dead = true := by simpa using hd
    have := runSched_dead C σ k (i - k) hd
    rw [show k + (i - k) = i by omega] at this
    rw [this] at hover
    rw [hbefore k hk] at hover; cases hover
  · intro w v f hv hf hs
    have hh := C70_handle C ((List.range i).map σ) hnf.2.1 (by
      intro k hk
      have hk' : k < i := by simpa using hk
      have h1 : (List.range i).take k = List.range k := by
        rw [List.take_range]; congr 1; omega
      rw [← List.map_take, h1, ← runSched_exec]
      exact hbefore k hk') w v f hv hf hs
    rw [← hexec] at hh
    cases hr : (runSched C σ i).resultOut with
    | none =>
      exfalso
      revert hover hr
      unfold St.over St.resultOut
      cases (runSched C σ i).phase <;> simp
    | some r =>
      rw [hr] at hh
      obtain ⟨w', hw'⟩ := hh
      exact ⟨w', r, rfl, hw'⟩
  · cases hp : (runSched C σ i).phase with
    | threw e =>
      have hp' := hp
      rw [hexec] at hp
      rcases C18_only_reasons C hwf _ e hp with ⟨rfl, hc⟩ | ⟨n, hn, w, rfl, hw⟩ | ⟨_, hc, _⟩ |
          ⟨_, ⟨k, hk⟩, _⟩ | ⟨_, f, hk, _⟩
      · exact .inl ⟨hcyc.1 hc, by rw [St.resultOut, hp']⟩
      · right; left
        refine ⟨fun hc => ?_, ?_⟩
        · rcases ((C09_exact C hwf ((List.range i).map σ)).2 (hcyc.2 hc)).2.1 _ hp with h | ⟨f, h, _⟩
          · cases h
          · exact hnf.2.2 f h
        · obtain ⟨j, j1, j2, _⟩ := hjob n hn
          rw [hdag] at hn
          exact ⟨_, j, w, h.sel hn, j1, j2 ▸ hw, by rw [St.resultOut, hp']⟩
      · exact absurd hc hnf.1
      · exact absurd hk (hnf.2.2 _)
      · exact absurd hk (hnf.2.2 f)
    | finished =>
      have hp' := hp
      rw [hexec] at hp
      right; right
      obtain ⟨f1, f2⟩ := finished_answers hwf _ hp
      refine ⟨fun hc => f1 (hcyc.2 hc), ?_, (runSched C σ i).erec, by rw [St.resultOut, hp'], ?_⟩
      · intro t ht
        obtain ⟨a, ha, rfl⟩ := h.node ht
        rw [← hdag] at ha
        obtain ⟨j, j1, j2, _⟩ := hjob a ha
        obtain ⟨_, ans, hans⟩ := f2 a ha
        exact ⟨j, ans, j1, by rw [← j2, hans]⟩
      · rw [hexec]
        have h1 := C22_executed E ts univ visit order filter s h tc ((List.range i).map σ)
          (by rw [hC]; exact hp)
        have h2 := C70_meaning E ts univ visit order filter s h tc ((List.range i).map σ)
          (by rw [hC]; exact hp)
        rw [hC] at h1 h2
        refine ⟨h1.1, h1.2, ?_, h2.2.1⟩
        have h3 := C02_one_record C hwf _ hp
        rw [h3.2.2, ← h3.1.length_eq, List.length_map]
    | _ => rw [St.over, hp] at hover; cases hover

namespace Ex

def kret (rc : Int) : JobOut := .ret { retcode := some rc, output := [], log := [] }

/-- a task with the given job and relations -/
def ktask (j : Job) (deps after inval : List TaskId) : Task :=
  { job := some j, dependsOn := deps, runAfter := after, invalidatedBy := inval, resources := []
    hidden := false }

/-- Task 10 fails, 11 depends on it, 12 is up to date, 13 is up to date itself but invalidated by 10;
12 runs after `a12`, the `is_invalidated` of 12 does `ask12`. -/
def kstore (a12 : List TaskId) (ask12 : InvalOut) : Store := fun t =>
  if t = 10 then ktask (.callable (kret 3)) [] [] []
  else if t = 11 then ktask (.callable (kret 0)) [10] [] []
  else if t = 12 then ktask (.custom ask12 (kret 0)) [] a12 []
  else ktask (.custom (.answer ⟨false, []⟩) (kret 0)) [] [12] [10]

def kenv (st : Store) : BEnv := 
  { store := st, alloc := fun k => if k < 10 then 50 - k else 100 + k, rehash := fun _ => true }
def kbuilt (st : Store) : BOut := insertSet (kenv st) 5 Dag.empty tree [] [12, 11, 10, 13] List.reverse
def kst (st : Store) : BSt :=
  match kbuilt st with | .ok s => s | _ => { dag := Dag.empty, tmp := [], index := [] }

theorem kisRun (st : Store) (hcl : ∀ t ∈ [10, 11, 12, 13], ∀ d ∈ (st t).dependsOn, d ∈ [10, 11, 12, 13])
    (hb : ∃ s, kbuilt st = .ok s) :
    Run (kenv st) tree [10, 11, 12, 13] [12, 11, 10, 13] List.reverse [] (kst st) where
  env :=
    { set := tree_wf
      dag := ⟨by simp [Dag.empty], by simp [Dag.empty]⟩
      allocInj := fun i j h => by
        have h' : (if i < 10 then 50 - i else 100 + i : Nat) = if j < 10 then 50 - j else 100 + j := h
        split at h' <;> split at h' <;> omega
      allocFresh := by simp [Dag.empty]
      closed := hcl
      univ := fun t ht => tree_tasks ht
      visit := fun t ht => by
        have := tree_tasks ht
        simp only [List.mem_cons, List.not_mem_nil, or_false] at this
        rcases this with rfl | rfl | rfl | rfl <;> simp
      order := fun l => List.reverse_perm l }
  built := ⟨5, by simp, by
    obtain ⟨s, hs⟩ := hb
    show kbuilt st = .ok (kst st)
    unfold kst
    rw [hs]⟩

theorem kbuilt_ok (a12 : List TaskId) (ask12 : InvalOut)
    (h : (match kbuilt (kstore a12 ask12) with | .ok _ => true | _ => false) = true) :
    Run (kenv (kstore a12 ask12)) tree [10, 11, 12, 13] [12, 11, 10, 13] List.reverse []
      (kst (kstore a12 ask12)) := by
  refine kisRun _ ?_ ?_
  · intro t ht d hd
    simp only [kstore] at hd
    split at hd
    · simp [ktask] at hd
    · split at hd
      · simp [ktask] at hd; simp [hd]
      · split at hd <;> simp [ktask] at hd
  · revert h
    cases kbuilt (kstore a12 ask12) with
    | ok s => intro _; exact ⟨s, rfl⟩
    | ub => intro h; cases h
    | outOfFuel => intro h; cases h

theorem kjobs (a12 : List TaskId) (ask12 : InvalOut) (sel : TaskId → Prop) :
    JobsOk (kstore a12 ask12) sel := by
  constructor
  · intro t _
    simp only [kstore]
    repeat' split
    all_goals simp [ktask]
  · intro t _ j rr hj hr
    simp only [kstore] at hj
    repeat' split at hj
    all_goals
      simp only [ktask, Option.some.injEq] at hj
      subst hj
      simp only [Job.run, kret, defaultTraitsRun, JobOut.ret.injEq] at hr
      subst hr
      simp

/-- up to date -/
def fresh : InvalOut := .answer ⟨false, []⟩

/-- the execution of the example, sequentially -/
def kend (a12 : List TaskId) (ask12 : InvalOut) (n : Nat) : St :=
  exec (execCfg (kstore a12 ask12) (kst (kstore a12 ask12)).dag 0) (List.replicate n .ctl)

end Ex

/-- the hypotheses of `C70_run` are met (thread count 3, round-robin schedule) -/
example : ∃ i, (runSched (execCfg (Ex.kstore [] Ex.fresh) (Ex.kst (Ex.kstore [] Ex.fresh)).dag 3)
    (roundRobin (execCfg (Ex.kstore [] Ex.fresh) (Ex.kst (Ex.kstore [] Ex.fresh)).dag 3)) i).resultOut
      ≠ none := by
  have hr := Ex.kbuilt_ok [] Ex.fresh (by decide +kernel)
  obtain ⟨i, _, h, _⟩ := C70_run _ _ _ _ _ _ _ hr 3 (Ex.kjobs _ _ _) _ (roundRobin_fair _ (hr.wf 3))
  obtain ⟨_, r, hr, _⟩ := h
    ⟨fun _ => true, fun _ => some 0, fun _ => some .susp, [], 1⟩ 0 0 rfl rfl rfl
  exact ⟨i, by intro h; have := hr.symm.trans h; cases this⟩

/-- all four verdicts -/
example : (Ex.kend [] Ex.fresh 26).phase = .finished ∧
    (Ex.kend [] Ex.fresh 26).erec.runs.map (fun r => (r.t, r.verdict)) =
      [(12, ⟨.skip, 0, []⟩), (13, ⟨.ok, 0, []⟩), (10, ⟨.fail, 3, []⟩), (11, ⟨.depf, 0, []⟩)] := by
  decide +kernel

/-- 12 after 13 after 12 -/
example : (Ex.kend [13] Ex.fresh 2).resultOut = some (.throws .cycle) := by decide +kernel

/-- the answer of task 12 is an exception -/
example : (Ex.kend [] (.throws "no".toList) 2).resultOut = some (.throws (.inval "no".toList)) := by
  decide +kernel

end Joque
