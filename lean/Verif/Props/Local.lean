import Verif.Props.Outcome

/-! # What the result of a task depends on (C88, C89, C90) -/

namespace Joque

/-- `recs` are the records of some finished `exec(ts, …, filter)` in a program with the task
objects `st`: any thread count, schedule, hash order and addresses. -/
def Finished (st : Store) (ts : TaskSet) (filter : Str) (recs : List RunRecord) : Prop :=
  ∃ (E : BEnv) (univ visit : List TaskId) (order : List TaskId → List TaskId) (s : BSt) (tc : Nat)
    (ms : List Move), E.store = st ∧ Run E ts univ visit order filter s ∧
    (exec (execCfg st s.dag tc) ms).phase = .finished ∧
    (exec (execCfg st s.dag tc) ms).erec.runs = recs

/-- the verdicts behind the records -/
structure Solved (st : Store) (sel : TaskId → Prop) (recs : List RunRecord)
    (v : TaskId → Verdict) : Prop where
  acyclic : ¬ OrderCycle st sel
  closed : ∀ t, sel t → ∀ d ∈ (st t).dependsOn, sel d
  all : ∀ t, sel t ↔ t ∈ recs.map RunRecord.t
  eqs : Verdicts st sel v
  saidBy : ∀ r ∈ recs, v r.t = r.verdict

theorem Finished.solved {st : Store} {ts : TaskSet} {filter : Str} {recs : List RunRecord}
    (h : Finished st ts filter recs) : ∃ v, Solved st (Selected st ts filter) recs v := by
  obtain ⟨E, univ, visit, order, s, tc, ms, rfl, hr, hfin, rfl⟩ := h
  obtain ⟨h1, h2, v, h3⟩ := C70_meaning E ts univ visit order filter s hr tc ms hfin
  refine ⟨v, ?_, fun t ht d hd => hr.depSel ht hd, ?_, h3, fun r hr' => h2 v h3 r hr'⟩
  · rw [← hr.cyclic_iff]
    exact (finished_answers (hr.wf tc) ms hfin).1
  · exact fun t => ((C22_executed E ts univ visit order filter s hr tc ms hfin).2 t).symm

/-- dependencies first -/
theorem Solved.induct {st : Store} {sel : TaskId → Prop} {recs : List RunRecord}
    {v : TaskId → Verdict} (h : Solved st sel recs v) {P : TaskId → Prop}
    (hP : ∀ t, sel t → (∀ d ∈ (st t).dependsOn, P d) → P t) (t : TaskId) (ht : sel t) : P t := by
  classical
  by_contra hcon
  have hne : (recs.map RunRecord.t).filter (fun t => decide (¬ P t)) ≠ [] :=
    List.ne_nil_of_mem (List.mem_filter.2 ⟨(h.all t).1 ht, by simpa using hcon⟩)
  obtain ⟨c, hc, hmin⟩ := exists_minimal (R := OrderedAfter st sel) h.acyclic _ _ (Nat.le_refl _) hne
  obtain ⟨h1, h2⟩ := List.mem_filter.1 hc
  have hsel := (h.all c).2 h1
  have h2 : ¬ P c := by simpa using h2
  apply h2
  apply hP c hsel
  intro d hd
  by_contra hnd
  have hds := h.closed c hsel d hd
  exact hmin d (List.mem_filter.2 ⟨(h.all d).1 hds, by simpa using hnd⟩) ⟨hsel, hds, .inl hd⟩

theorem verdict_ran {j : Job} {a b : Verdict} (ha : Yields j a.retcode a.output)
    (hb : Yields j b.retcode b.output) (ha' : a.status = if a.retcode = 0 then .ok else .fail)
    (hb' : b.status = if b.retcode = 0 then .ok else .fail) : a = b := by
  rw [yields_iff] at ha hb
  have h1 : a.retcode = b.retcode := Option.some.inj (ha.1.symm.trans hb.1)
  have h2 : a.output = b.output := ha.2.trans hb.2.symm
  cases a; cases b
  simp only at h1 h2 ha' hb'
  subst h1 h2
  rw [ha', hb']

/-- `t`'s result may depend on `u`: `t` is `u`, or declares a relation (`depends_on` or
`invalidated_by`) to a selected task whose result may depend on `u`. -/
def Matters (st : Store) (sel : TaskId → Prop) (t u : TaskId) : Prop :=
  Relation.ReflTransGen
    (fun a b => sel b ∧ (b ∈ (st a).dependsOn ∨ b ∈ (st a).invalidatedBy)) t u

/-- the two programs have the same task `u`, except for its name, resources and `run_after` -/
structure SameTask (st1 st2 : Store) (u : TaskId) : Prop where
  job : (st1 u).job = (st2 u).job
  deps : ∀ d, d ∈ (st1 u).dependsOn ↔ d ∈ (st2 u).dependsOn
  inval : ∀ d, d ∈ (st1 u).invalidatedBy ↔ d ∈ (st2 u).invalidatedBy

theorem outOfDate_local {st1 st2 : Store} {sel1 sel2 : TaskId → Prop} {t : TaskId}
    (hsame : ∀ u, Matters st1 sel1 t u → SameTask st1 st2 u ∧
      ∀ d, (d ∈ (st1 u).dependsOn ∨ d ∈ (st1 u).invalidatedBy) → (sel1 d ↔ sel2 d)) :
    OutOfDate st1 sel1 t ↔ OutOfDate st2 sel2 t := by
  have stale : ∀ u, Matters st1 sel1 t u → (SaysStale st1 u ↔ SaysStale st2 u) := by
    intro u hu
    unfold SaysStale
    rw [(hsame u hu).1.job]
  constructor
  · rintro ⟨u, hu, hs⟩
    refine ⟨u, ?_, (stale u hu).1 hs⟩
    clear hs
    induction hu with
    | refl => exact .refl
    | tail hab hb ih =>
      rename_i a b
      obtain ⟨h1, h2⟩ := hsame a hab
      exact ih.tail ⟨(h2 b hb.2).1 hb.1, hb.2.imp (h1.deps b).1 (h1.inval b).1⟩
  · rintro ⟨u, hu, hs⟩
    have hm : Matters st1 sel1 t u := by
      clear hs
      induction hu with
      | refl => exact .refl
      | tail hab hb ih =>
        rename_i a b
        obtain ⟨h1, h2⟩ := hsame a ih
        have hb' := hb.2.imp (h1.deps b).2 (h1.inval b).2
        exact ih.tail ⟨(h2 b hb').2 hb.1, hb'⟩
    exact ⟨u, hm, (stale u hm).2 hs⟩

/-- **C90**.  The result of a task – status, return code and output – depends only on the tasks it
declares: if two programs agree on the jobs and relations of these and on which of them are selected,
the task gets the same result in both, whatever else the two programs contain. -/
theorem C90_local (st1 st2 : Store) (ts1 ts2 : TaskSet) (f1 f2 : Str) (rs1 rs2 : List RunRecord)
    (h1 : Finished st1 ts1 f1 rs1) (h2 : Finished st2 ts2 f2 rs2) (r1 r2 : RunRecord)
    (hr1 : r1 ∈ rs1) (hr2 : r2 ∈ rs2) (ht : r1.t = r2.t)
    (hsame : ∀ u, Matters st1 (Selected st1 ts1 f1) r1.t u → SameTask st1 st2 u ∧
      ∀ d, (d ∈ (st1 u).dependsOn ∨ d ∈ (st1 u).invalidatedBy) →
        (Selected st1 ts1 f1 d ↔ Selected st2 ts2 f2 d)) :
    r1.status = r2.status ∧ r1.retcode = r2.retcode ∧ r1.output = r2.output := by
  obtain ⟨v1, s1⟩ := h1.solved
  obtain ⟨v2, s2⟩ := h2.solved
  have key : ∀ t, Selected st1 ts1 f1 t → Selected st2 ts2 f2 t →
      Matters st1 (Selected st1 ts1 f1) r1.t t → v1 t = v2 t := by
    intro t ht
    refine s1.induct (P := fun t => Selected st2 ts2 f2 t →
      Matters st1 (Selected st1 ts1 f1) r1.t t → v1 t = v2 t) ?_ t ht
    intro t ht ih ht2 hm
    obtain ⟨e1, e2⟩ := hsame t hm
    have hdep : DepFailed st1 v1 t ↔ DepFailed st2 v2 t := by
      have hd : ∀ d ∈ (st1 t).dependsOn, v1 d = v2 d := by
        intro d hd
        have hs := s1.closed t ht d hd
        exact ih d hd ((e2 d (.inl hd)).1 hs) (hm.tail ⟨hs, .inl hd⟩)
      constructor
      · rintro ⟨d, hd', h⟩
        exact ⟨d, (e1.deps d).1 hd', by rw [← hd d hd']; exact h⟩
      · rintro ⟨d, hd', h⟩
        have hd' := (e1.deps d).2 hd'
        exact ⟨d, hd', by rw [hd d hd']; exact h⟩
    have hod := outOfDate_local (sel2 := Selected st2 ts2 f2) (fun u hu => hsame u (hm.trans hu))
    by_cases h : DepFailed st1 v1 t
    · rw [s1.eqs.depf t ht h, s2.eqs.depf t ht2 (hdep.1 h)]
    · have h' : ¬ DepFailed st2 v2 t := fun h' => h (hdep.2 h')
      by_cases ho : OutOfDate st1 (Selected st1 ts1 f1) t
      · obtain ⟨j, a1, a2, a3⟩ := s1.eqs.ran t ht h ho
        obtain ⟨j', b1, b2, b3⟩ := s2.eqs.ran t ht2 h' (hod.1 ho)
        rw [e1.job, b1] at a1
        cases a1
        exact verdict_ran a2 b2 a3 b3
      · rw [s1.eqs.skip t ht h ho, s2.eqs.skip t ht2 h' (fun x => ho (hod.2 x))]
  have hk := key r1.t ((s1.all _).2 (List.mem_map_of_mem hr1))
    (ht ▸ (s2.all _).2 (List.mem_map_of_mem hr2)) .refl
  rw [s1.saidBy r1 hr1, ht, s2.saidBy r2 hr2] at hk
  exact ⟨congrArg Verdict.status hk, congrArg Verdict.retcode hk, congrArg Verdict.output hk⟩

/-! ## Filters -/

/-- a narrower filter selects less -/
theorem selected_mono {st : Store} {ts : TaskSet} {f g : Str} (hfg : f <:+: g) {t : TaskId}
    (h : Selected st ts g t) : Selected st ts f t := by
  obtain ⟨p, s, h1, h2, h3⟩ := h
  exact ⟨p, s, h1, hfg.trans h2, h3⟩

/-- **C88**, where it holds: if whatever a selected task is invalidated by is selected as well, the
filter does not change the result of any task. -/
theorem C88_partial (st : Store) (ts : TaskSet) (f g : Str) (hfg : f <:+: g)
    (rs1 rs2 : List RunRecord) (h1 : Finished st ts g rs1) (h2 : Finished st ts f rs2)
    (hcl : ∀ t d, Selected st ts g t → d ∈ (st t).invalidatedBy → Selected st ts f d →
      Selected st ts g d)
    (r1 r2 : RunRecord) (hr1 : r1 ∈ rs1) (hr2 : r2 ∈ rs2) (ht : r1.t = r2.t) :
    r1.status = r2.status ∧ r1.retcode = r2.retcode ∧ r1.output = r2.output := by
  obtain ⟨v1, s1⟩ := h1.solved
  refine C90_local st st ts ts g f rs1 rs2 h1 h2 r1 r2 hr1 hr2 ht ?_
  intro u hu
  have hsel : Selected st ts g u := by
    rcases Relation.ReflTransGen.cases_tail hu with h | ⟨_, _, h⟩
    · rw [h]; exact (s1.all _).2 (List.mem_map_of_mem hr1)
    · exact h.1
  refine ⟨⟨rfl, fun _ => Iff.rfl, fun _ => Iff.rfl⟩, fun d hd => ⟨selected_mono hfg, fun h => ?_⟩⟩
  rcases hd with hd | hd
  · exact s1.closed u hsel d hd
  · exact hcl u d hsel hd h

/-- what a dependency's record says -/
theorem Solved.depFailed_iff {st : Store} {sel : TaskId → Prop} {recs : List RunRecord}
    {v : TaskId → Verdict} (h : Solved st sel recs v) {t : TaskId} (ht : sel t) :
    DepFailed st v t ↔ ∃ r ∈ recs, r.t ∈ (st t).dependsOn ∧ (r.status = .fail ∨ r.status = .depf) := by
  constructor
  · rintro ⟨d, hd, hs⟩
    obtain ⟨r, hr, rfl⟩ := List.mem_map.1 ((h.all d).1 (h.closed t ht d hd))
    rw [h.saidBy r hr] at hs
    exact ⟨r, hr, hd, hs⟩
  · rintro ⟨r, hr, hd, hs⟩
    exact ⟨r.t, hd, by rw [h.saidBy r hr]; exact hs⟩

/-- **C88**, exactly: the filter changes no result if and only if each selected task whose
dependencies did not fail is out of date among the tasks of the narrow selection when it is out of
date among those of the wide one. -/
theorem C88_exact (st : Store) (ts : TaskSet) (f g : Str) (hfg : f <:+: g)
    (rs1 rs2 : List RunRecord) (h1 : Finished st ts g rs1) (h2 : Finished st ts f rs2) :
    (∀ r1 ∈ rs1, ∀ r2 ∈ rs2, r1.t = r2.t →
      r1.status = r2.status ∧ r1.retcode = r2.retcode ∧ r1.output = r2.output) ↔
    ∀ r1 ∈ rs1, (∀ d ∈ rs1, d.t ∈ (st r1.t).dependsOn → d.status = .ok ∨ d.status = .skip) →
      OutOfDate st (Selected st ts f) r1.t → OutOfDate st (Selected st ts g) r1.t := by
  obtain ⟨v1, s1⟩ := h1.solved
  obtain ⟨v2, s2⟩ := h2.solved
  have hup : ∀ t, OutOfDate st (Selected st ts g) t → OutOfDate st (Selected st ts f) t := by
    rintro t ⟨u, hu, hs⟩
    exact ⟨u, Relation.ReflTransGen.mono (fun a b h => ⟨selected_mono hfg h.1, h.2⟩) _ _ hu, hs⟩
  have hcond : ∀ r1 ∈ rs1, (¬ DepFailed st v1 r1.t ↔
      ∀ d ∈ rs1, d.t ∈ (st r1.t).dependsOn → d.status = .ok ∨ d.status = .skip) := by
    intro r1 hr1
    rw [s1.depFailed_iff ((s1.all _).2 (List.mem_map_of_mem hr1))]
    constructor
    · intro h d hd hdep
      cases hs : d.status
      · exact .inl rfl
      · exact .inr rfl
      · exact absurd ⟨d, hd, hdep, .inr hs⟩ h
      · exact absurd ⟨d, hd, hdep, .inl hs⟩ h
    · rintro h ⟨d, hd, hdep, hs⟩
      rcases h d hd hdep with h | h <;> rw [h] at hs <;> simp at hs
  constructor
  · intro heq r1 hr1 hdeps hod
    by_contra hno
    have hsel1 := (s1.all _).2 (List.mem_map_of_mem hr1)
    have hsel2 := selected_mono hfg hsel1
    obtain ⟨r2, hr2, ht⟩ := List.mem_map.1 ((s2.all _).1 hsel2)
    have hst := (heq r1 hr1 r2 hr2 ht.symm).1
    have hnd := (hcond r1 hr1).2 hdeps
    have e1 := s1.eqs.skip _ hsel1 hnd hno
    rw [s1.saidBy r1 hr1] at e1
    have e1 : r1.status = .skip := congrArg Verdict.status e1
    have e2 := s2.saidBy r2 hr2
    have hnd2 : ¬ DepFailed st v2 r1.t := by
      intro h
      have := s2.eqs.depf _ hsel2 h
      rw [← ht, e2] at this
      have : r2.status = .depf := congrArg Verdict.status this
      rw [← hst, e1] at this; cases this
    obtain ⟨j, _, _, h3⟩ := s2.eqs.ran _ hsel2 hnd2 hod
    rw [← ht, e2] at h3
    have h3 : r2.status = if r2.retcode = 0 then .ok else .fail := h3
    rw [← hst, e1] at h3
    split at h3 <;> cases h3
  · intro hod
    have key : ∀ t, Selected st ts g t → v1 t = v2 t := by
      intro t ht
      refine s1.induct (P := fun t => v1 t = v2 t) ?_ t ht
      intro t ht ih
      have ht2 := selected_mono hfg ht
      have hdep : DepFailed st v1 t ↔ DepFailed st v2 t := by
        constructor
        · rintro ⟨d, hd, h⟩; exact ⟨d, hd, by rw [← ih d hd]; exact h⟩
        · rintro ⟨d, hd, h⟩; exact ⟨d, hd, by rw [ih d hd]; exact h⟩
      obtain ⟨r, hr, rfl⟩ := List.mem_map.1 ((s1.all t).1 ht)
      by_cases h : DepFailed st v1 r.t
      · rw [s1.eqs.depf _ ht h, s2.eqs.depf _ ht2 (hdep.1 h)]
      · have h' : ¬ DepFailed st v2 r.t := fun h' => h (hdep.2 h')
        by_cases ho : OutOfDate st (Selected st ts g) r.t
        · obtain ⟨j, a1, a2, a3⟩ := s1.eqs.ran _ ht h ho
          obtain ⟨j', b1, b2, b3⟩ := s2.eqs.ran _ ht2 h' (hup _ ho)
          rw [b1] at a1
          cases a1
          exact verdict_ran a2 b2 a3 b3
        · rw [s1.eqs.skip _ ht h ho, s2.eqs.skip _ ht2 h'
            (fun x => ho (hod r hr ((hcond r hr).1 h) x))]
    intro r1 hr1 r2 hr2 ht
    have hk := key r1.t ((s1.all _).2 (List.mem_map_of_mem hr1))
    rw [s1.saidBy r1 hr1, ht, s2.saidBy r2 hr2] at hk
    exact ⟨congrArg Verdict.status hk, congrArg Verdict.retcode hk, congrArg Verdict.output hk⟩

/-- **C88**, always: what the narrow selection executes is not up to date in the wide one either
(it is executed there or has a failed dependency). -/
theorem C88_never_more (st : Store) (ts : TaskSet) (f g : Str) (hfg : f <:+: g)
    (rs1 rs2 : List RunRecord) (h1 : Finished st ts g rs1) (h2 : Finished st ts f rs2)
    (r1 r2 : RunRecord) (hr1 : r1 ∈ rs1) (hr2 : r2 ∈ rs2) (ht : r1.t = r2.t)
    (hran : r1.status = .ok ∨ r1.status = .fail) : r2.status ≠ .skip := by
  obtain ⟨v1, s1⟩ := h1.solved
  obtain ⟨v2, s2⟩ := h2.solved
  have hsel1 := (s1.all _).2 (List.mem_map_of_mem hr1)
  have hsel2 := (s2.all _).2 (List.mem_map_of_mem hr2)
  have e1 := s1.saidBy r1 hr1
  have e2 := s2.saidBy r2 hr2
  intro hskip
  have ho : OutOfDate st (Selected st ts g) r1.t := by
    by_contra ho
    by_cases hd : DepFailed st v1 r1.t
    · have : r1.status = .depf := congrArg Verdict.status (e1.symm.trans (s1.eqs.depf _ hsel1 hd))
      rw [this] at hran; simp at hran
    · have : r1.status = .skip := congrArg Verdict.status (e1.symm.trans (s1.eqs.skip _ hsel1 hd ho))
      rw [this] at hran; simp at hran
  have ho2 : OutOfDate st (Selected st ts f) r2.t := by
    obtain ⟨u, hu, hs⟩ := ho
    rw [← ht]
    exact ⟨u, Relation.ReflTransGen.mono (fun a b h => ⟨selected_mono hfg h.1, h.2⟩) _ _ hu, hs⟩
  by_cases hd : DepFailed st v2 r2.t
  · have : r2.status = .depf := congrArg Verdict.status (e2.symm.trans (s2.eqs.depf _ hsel2 hd))
    rw [this] at hskip; cases hskip
  · obtain ⟨j, _, _, h3⟩ := s2.eqs.ran _ hsel2 hd ho2
    rw [e2] at h3
    have h3 : r2.status = if r2.retcode = 0 then .ok else .fail := h3
    rw [hskip] at h3
    split at h3 <;> cases h3

/-! ## Repairs -/

/-- `st2` is `st1` with some jobs repaired: the relations are the same, a job that succeeds in `st1`
succeeds in `st2`, and no job says that it is out of date in `st2` that does not in `st1`. -/
structure Repaired (st1 st2 : Store) : Prop where
  deps : ∀ t d, d ∈ (st1 t).dependsOn ↔ d ∈ (st2 t).dependsOn
  inval : ∀ t d, d ∈ (st1 t).invalidatedBy ↔ d ∈ (st2 t).invalidatedBy
  stale : ∀ t, SaysStale st2 t → SaysStale st1 t
  works : ∀ t j1 j2 out, (st1 t).job = some j1 → (st2 t).job = some j2 → Yields j1 0 out →
    ∃ out', Yields j2 0 out'

/-- **C89**.  Repairing jobs never breaks a task: whatever fails, or is not executed because of a
failure, after the repair did so before. -/
theorem C89_repair (st1 st2 : Store) (ts : TaskSet) (f : Str) (rs1 rs2 : List RunRecord)
    (h1 : Finished st1 ts f rs1) (h2 : Finished st2 ts f rs2) (hrep : Repaired st1 st2)
    (r1 r2 : RunRecord) (hr1 : r1 ∈ rs1) (hr2 : r2 ∈ rs2) (ht : r1.t = r2.t)
    (hbad : r2.status = .fail ∨ r2.status = .depf) : r1.status = .fail ∨ r1.status = .depf := by
  obtain ⟨v1, s1⟩ := h1.solved
  obtain ⟨v2, s2⟩ := h2.solved
  have hsel : ∀ t, Selected st1 ts f t ↔ Selected st2 ts f t := by
    have : DependsOn st1 = DependsOn st2 := by
      funext t d; exact propext (hrep.deps t d)
    intro t
    unfold Selected
    rw [this]
  have hod : ∀ t, OutOfDate st2 (Selected st2 ts f) t → OutOfDate st1 (Selected st1 ts f) t := by
    rintro t ⟨u, hu, hs⟩
    exact ⟨u, Relation.ReflTransGen.mono (fun a b h => ⟨(hsel b).2 h.1,
      h.2.imp (hrep.deps a b).2 (hrep.inval a b).2⟩) _ _ hu, hrep.stale u hs⟩
  have key : ∀ t, Selected st1 ts f t → ((v2 t).status = .fail ∨ (v2 t).status = .depf) →
      (v1 t).status = .fail ∨ (v1 t).status = .depf := by
    intro t ht
    refine s1.induct (P := fun t => ((v2 t).status = .fail ∨ (v2 t).status = .depf) →
      (v1 t).status = .fail ∨ (v1 t).status = .depf) ?_ t ht
    intro t ht ih hb
    have ht2 := (hsel t).1 ht
    by_cases hd1 : DepFailed st1 v1 t
    · rw [s1.eqs.depf t ht hd1]; exact .inr rfl
    · have hd2 : ¬ DepFailed st2 v2 t := by
        rintro ⟨d, hd, h⟩
        have hd := (hrep.deps t d).2 hd
        exact hd1 ⟨d, hd, ih d hd h⟩
      by_cases ho2 : OutOfDate st2 (Selected st2 ts f) t
      · obtain ⟨j2, b1, b2, b3⟩ := s2.eqs.ran t ht2 hd2 ho2
        obtain ⟨j1, a1, a2, a3⟩ := s1.eqs.ran t ht hd1 (hod t ho2)
        by_cases h0 : (v1 t).retcode = 0
        · exfalso
          rw [h0] at a2
          obtain ⟨out', ho'⟩ := hrep.works t j1 j2 _ a1 b1 a2
          rw [yields_iff] at ho' b2
          have : (v2 t).retcode = 0 := Option.some.inj (b2.1.symm.trans ho'.1)
          rw [b3, if_pos this] at hb
          simp at hb
        · left; rw [a3, if_neg h0]
      · rw [s2.eqs.skip t ht2 hd2 ho2] at hb
        simp at hb
  have := key r1.t ((s1.all _).2 (List.mem_map_of_mem hr1)) (by
    rw [ht, s2.saidBy r2 hr2]; exact hbad)
  rw [s1.saidBy r1 hr1] at this
  exact this

/-! ## Examples -/

namespace Ex

/-- the example of C70 (task 13 is up to date itself and invalidated by 10) with any filter, tasks
and relations of `kstore` -/
def kfbuilt (st : Store) (f : Str) : BOut :=
  insertSet (kenv st) 5 Dag.empty tree f [12, 11, 10, 13] List.reverse
def kfst (st : Store) (f : Str) : BSt :=
  match kfbuilt st f with | .ok s => s | _ => { dag := Dag.empty, tmp := [], index := [] }

theorem kfinished (st : Store) (f : Str)
    (hcl : ∀ t ∈ [10, 11, 12, 13], ∀ d ∈ (st t).dependsOn, d ∈ [10, 11, 12, 13])
    (hb : (match kfbuilt st f with | .ok _ => true | _ => false) = true)
    (n : Nat) (hfin : (exec (execCfg st (kfst st f).dag 0) (List.replicate n .ctl)).phase = .finished) :
    Finished st tree f (exec (execCfg st (kfst st f).dag 0) (List.replicate n .ctl)).erec.runs := by
  refine ⟨kenv st, [10, 11, 12, 13], [12, 11, 10, 13], List.reverse, kfst st f, 0,
    List.replicate n .ctl, rfl, ⟨?_, 5, by simp, ?_⟩, hfin, rfl⟩
  · exact
      { set := tree_wf
        dag := ⟨by simp [Dag.empty], by simp [Dag.empty]⟩
        allocInj := fun i j h => by
          have h' : (if i < 10 then 50 - i else 100 + i : Nat) = if j < 10 then 50 - j else 100 + j := h
          split at h' <;> split at h' <;> omega
        allocFresh := by simp [Dag.empty]
        closed := hcl
        univ := fun t ht => tree_tasks ht
        visit := fun t ht => by
          have := tree_tasks ht
          simp only [List.mem_cons, List.not_mem_nil, or_false] at this
          rcases this with rfl | rfl | rfl | rfl <;> simp
        order := fun l => List.reverse_perm l }
  · show kfbuilt st f = .ok (kfst st f)
    unfold kfst
    revert hb
    cases kfbuilt st f with
    | ok s => intro _; rfl
    | ub => intro h; cases h
    | outOfFuel => intro h; cases h

theorem kclosed (a12 : List TaskId) (ask12 : InvalOut) : ∀ t ∈ [10, 11, 12, 13],
    ∀ d ∈ (kstore a12 ask12 t).dependsOn, d ∈ [10, 11, 12, 13] := by
  intro t ht d hd
  simp only [kstore] at hd
  split at hd
  · simp [ktask] at hd
  · split at hd
    · simp [ktask] at hd; simp [hd]
    · split at hd <;> simp [ktask] at hd

/-- `kstore` with the job of 10 repaired -/
def krepaired : Store := fun t =>
  if t = 10 then ktask (.callable (kret 0)) [] [] [] else kstore [] fresh t

end Ex

/-- **C88** is false in general: executing everything, task 13 (`//z/v/u`) is executed because it is
invalidated by task 10; with the filter `u` it alone is selected, and it is skipped. -/
theorem C88_counterexample : ∃ rs1 rs2 r1 r2,
    Finished (Ex.kstore [] Ex.fresh) Ex.tree "u".toList rs1 ∧
    Finished (Ex.kstore [] Ex.fresh) Ex.tree [] rs2 ∧ r1 ∈ rs1 ∧ r2 ∈ rs2 ∧ r1.t = 13 ∧ r2.t = 13 ∧
    r1.status = .skip ∧ r2.status = .ok := by
  have h1 : ∃ r ∈ (exec (execCfg (Ex.kstore [] Ex.fresh) (Ex.kfst (Ex.kstore [] Ex.fresh) "u".toList).dag 0)
      (List.replicate 11 .ctl)).erec.runs, r.t = 13 ∧ r.status = .skip := by decide +kernel
  have h2 : ∃ r ∈ (exec (execCfg (Ex.kstore [] Ex.fresh) (Ex.kfst (Ex.kstore [] Ex.fresh) []).dag 0)
      (List.replicate 26 .ctl)).erec.runs, r.t = 13 ∧ r.status = .ok := by decide +kernel
  obtain ⟨r1, a1, a2, a3⟩ := h1
  obtain ⟨r2, b1, b2, b3⟩ := h2
  exact ⟨_, _, r1, r2, Ex.kfinished _ _ (Ex.kclosed _ _) (by decide +kernel) 11 (by decide +kernel),
    Ex.kfinished _ _ (Ex.kclosed _ _) (by decide +kernel) 26 (by decide +kernel), a1, b1, a2, b2, a3, b3⟩

/-- with the filter `x` tasks 10 and 11 are selected; the hypotheses of `C88_partial` hold, and the
two have the results FAIL and DEPF in both -/
example : ([] : Str) <:+: "x".toList ∧
    (Finished (Ex.kstore [] Ex.fresh) Ex.tree "x".toList (exec (execCfg (Ex.kstore [] Ex.fresh)
      (Ex.kfst (Ex.kstore [] Ex.fresh) "x".toList).dag 0) (List.replicate 16 .ctl)).erec.runs) ∧
    (∀ t d, Selected (Ex.kstore [] Ex.fresh) Ex.tree "x".toList t →
      d ∈ (Ex.kstore [] Ex.fresh t).invalidatedBy → Selected (Ex.kstore [] Ex.fresh) Ex.tree [] d →
      Selected (Ex.kstore [] Ex.fresh) Ex.tree "x".toList d) ∧
    (exec (execCfg (Ex.kstore [] Ex.fresh) (Ex.kfst (Ex.kstore [] Ex.fresh) "x".toList).dag 0)
      (List.replicate 16 .ctl)).erec.runs.map (fun r => (r.t, r.status)) =
      [(10, .fail), (11, .depf)] := by
  have hF : Finished (Ex.kstore [] Ex.fresh) Ex.tree "x".toList (exec (execCfg (Ex.kstore [] Ex.fresh)
      (Ex.kfst (Ex.kstore [] Ex.fresh) "x".toList).dag 0) (List.replicate 16 .ctl)).erec.runs :=
    Ex.kfinished _ _ (Ex.kclosed _ _) (by decide +kernel) 16 (by decide +kernel)
  have hruns : (exec (execCfg (Ex.kstore [] Ex.fresh) (Ex.kfst (Ex.kstore [] Ex.fresh) "x".toList).dag 0)
      (List.replicate 16 .ctl)).erec.runs.map (fun r => (r.t, r.status)) =
      [(10, .fail), (11, .depf)] := by decide +kernel
  refine ⟨List.nil_infix, hF, ?_, hruns⟩
  intro t d ht hd _
  obtain ⟨v, s⟩ := hF.solved
  have h1 := (s.all t).1 ht
  have h2 : t = 10 ∨ t = 11 := by
    obtain ⟨r, hr, rfl⟩ := List.mem_map.1 h1
    have : (r.t, r.status) ∈ [(10, Status.fail), (11, Status.depf)] := by
      rw [← hruns]; exact List.mem_map_of_mem hr
    simp only [List.mem_cons, Prod.mk.injEq, List.not_mem_nil, or_false] at this
    exact this.imp And.left And.left
  rcases h2 with rfl | rfl <;> simp [Ex.kstore, Ex.ktask] at hd

/-- the hypothesis of `C89_repair` holds when the failing job of task 10 is repaired; the repair makes
10 and 11 succeed -/
example : Repaired (Ex.kstore [] Ex.fresh) Ex.krepaired ∧
    Finished Ex.krepaired Ex.tree [] (exec (execCfg Ex.krepaired (Ex.kfst Ex.krepaired []).dag 0)
      (List.replicate 26 .ctl)).erec.runs ∧
    (exec (execCfg Ex.krepaired (Ex.kfst Ex.krepaired []).dag 0)
      (List.replicate 26 .ctl)).erec.runs.map (fun r => (r.t, r.status)) =
      [(12, .skip), (13, .ok), (10, .ok), (11, .ok)] := by
  refine ⟨⟨?_, ?_, ?_, ?_⟩, Ex.kfinished _ _ ?_ (by decide +kernel) 26 (by decide +kernel),
    by decide +kernel⟩
  · intro t d
    unfold Ex.krepaired
    split
    · rename_i h; subst h; exact Iff.rfl
    · exact Iff.rfl
  · intro t d
    unfold Ex.krepaired
    split
    · rename_i h; subst h; exact Iff.rfl
    · exact Iff.rfl
  · intro t
    unfold SaysStale Ex.krepaired
    split
    · rename_i h; subst h
      rintro ⟨j, log, h1, h2⟩
      cases h1
      exact ⟨_, log, rfl, h2⟩
    · exact id
  · intro t j1 j2 out h1 h2 hy
    unfold Ex.krepaired at h2
    split at h2
    · cases h2
      exact ⟨[], rfl, rfl⟩
    · rw [h1] at h2; cases h2
      exact ⟨out, hy⟩
  · intro t ht d hd
    unfold Ex.krepaired at hd
    split at hd
    · simp [Ex.ktask] at hd
    · exact Ex.kclosed _ _ t ht d hd

/-- the hypothesis of `C90_local`: the result of 12 does not depend on the job of 10 -/
example : ∀ u, Matters (Ex.kstore [] Ex.fresh) (Selected (Ex.kstore [] Ex.fresh) Ex.tree []) 12 u →
    SameTask (Ex.kstore [] Ex.fresh) Ex.krepaired u ∧
      ∀ d, (d ∈ (Ex.kstore [] Ex.fresh u).dependsOn ∨ d ∈ (Ex.kstore [] Ex.fresh u).invalidatedBy) →
        (Selected (Ex.kstore [] Ex.fresh) Ex.tree [] d ↔ Selected Ex.krepaired Ex.tree [] d) := by
  intro u hu
  have hu : u = 12 := by
    induction hu with
    | refl => rfl
    | tail _ h ih =>
      subst ih
      simp [Ex.kstore, Ex.ktask] at h
  subst hu
  exact ⟨⟨rfl, fun _ => Iff.rfl, fun _ => Iff.rfl⟩, fun d hd => by simp [Ex.kstore, Ex.ktask] at hd⟩

end Joque
