import Verif.Proof.Changes
import Verif.Props.Exec6
import Verif.Model.InsertSet

/-! # Changing the resources of tasks while they are executed (C107) -/

namespace Joque

variable {C : Cfg}

theorem InProgress.handle {R : Node → List Res} {s : St} (hI : Inv (C.withRes R) s)
    (hact : s.phase.active = true) {n : Node} (hn : n ∈ C.dag.nodes) (h : InProgress s n) :
    ∃ x ∈ handles s, x.launched = true ∧ x.node = n := by
  have h1 := hI.part hact n hn
  unfold allNodes at h1
  simp only [List.mem_append] at h1
  rcases h1 with (h1 | h1) | h1
  · obtain ⟨x, hx, rfl⟩ := List.mem_map.1 h1
    cases hl : x.launched with
    | true => exact ⟨x, hx, hl, rfl⟩
    | false =>
      have h2 := (hI.fresh (by intro hu; rw [hu] at hact; cases hact) x hx hl).1
      rw [h.1] at h2; cases h2
  · have h2 := (hI.doneIff n).2 h1
    rw [h.2] at h2; cases h2
  · have h2 := hI.tpIdle n h1
    rw [h.1] at h2; cases h2

/-- **C107**, the part that holds.  Whatever changes are made to the resources of the tasks, as long as
they respect the running tasks: no assertion fails, tasks in progress have no resource in common – with
the lists as they are now –, they are at most as many as there are threads, everything they must run after
is done, no task gets two records, and an execution that completes has a record of every task. -/
theorem C107_partial (C : Cfg) (hwf : C.dag.WF) (l : List ((Node → List Res) × Move)) (hc : CarefulCh C l) :
    let s := execCh C l
    s.phase ≠ .abort ∧ s.phase ≠ .outOfFuel ∧
    (s.phase.active = true →
      (∀ a ∈ C.dag.nodes, ∀ b ∈ C.dag.nodes, InProgress s a → InProgress s b → a ≠ b →
        ∀ r ∈ listed C l a, r ∉ listed C l b) ∧
      (∀ ns : List Node, ns.Nodup → (∀ n ∈ ns, n ∈ C.dag.nodes ∧ InProgress s n) →
        ns.length ≤ max 1 C.threadCount) ∧
      (∀ n ∈ C.dag.nodes, InProgress s n → ∀ m, AfterEdge C.dag n m → s.flags.done m = true)) ∧
    (s.erec.runs.map RunRecord.node).Nodup ∧
    (s.phase = .finished → (s.erec.runs.map RunRecord.node).Perm C.dag.nodes) := by
  intro s
  obtain ⟨R0, hI, he⟩ := chinv_exec hwf l hc
  have hnd : (s.erec.runs.map RunRecord.node).Nodup := by
    have h2 := hI.nodup
    unfold allNodes at h2
    rw [List.nodup_append, List.nodup_append] at h2
    exact h2.1.2.1
  refine ⟨hI.noAbort, hI.noFuel, fun hact => ⟨?_, ?_, ?_⟩, hnd, ?_⟩
  · have := he hact
    subst this
    intro a ha b hb pa pb hab
    obtain ⟨x, hx, lx, rfl⟩ := pa.handle hI hact ha
    obtain ⟨y, hy, ly, rfl⟩ := pb.handle hI hact hb
    exact hI.excl x hx y hy lx ly hab
  · intro ns hns hin
    have hsub : ns ⊆ (handles s).map Handle.node := by
      intro n hn
      obtain ⟨x, hx, _, rfl⟩ := (hin n hn).2.handle hI hact (hin n hn).1
      exact List.mem_map_of_mem hx
    have h1 := (List.subperm_of_subset hns hsub).length_le
    rw [List.length_map] at h1
    by_cases h0 : C.threadCount = 0
    · have := hI.cap0 h0; exact Nat.le_trans h1 (Nat.le_trans this (Nat.le_max_left _ _))
    · have := hI.cap h0; exact Nat.le_trans h1 (Nat.le_trans this (Nat.le_max_right _ _))
  · intro n hn pn m hm
    obtain ⟨x, hx, _, rfl⟩ := pn.handle hI hact hn
    exact hI.preds x hx m hm
  · intro hf
    have hf' : (execCh C l).phase = .finished := hf
    have hact : (execCh C l).phase.active = true := by rw [hf']; rfl
    rw [List.perm_ext_iff_of_nodup hnd hwf.nodup]
    intro n
    constructor
    · intro h
      refine hI.inNodes n ?_
      unfold allNodes
      simp only [List.mem_append]
      exact .inl (.inr h)
    · intro h
      have h1 := hI.part hact n h
      have h2 : handles (execCh C l) = [] := by
        unfold handles
        rw [hI.finishedEmpty hf', (hI.notClean hact (by rw [hf']; rfl)).1]; rfl
      unfold allNodes at h1
      rw [h2, hI.drain (by rw [hf']; rfl)] at h1
      simp only [List.map_nil, List.nil_append, List.append_nil] at h1
      exact h1

/-- Records of the same task in two states of the engine agree, whatever resources the tasks list. -/
theorem same_results {R1 R2 : Node → List Res} {s1 s2 : St} (hI1 : Inv (C.withRes R1) s1)
    (hI2 : Inv (C.withRes R2) s2) (ha1 : s1.phase.active = true) (ha2 : s2.phase.active = true)
    (hra : ∀ a b, HasEdge C.dag .requires a b → AfterEdge C.dag a b)
    {r1 r2 : RunRecord} (h1 : r1 ∈ s1.erec.runs) (h2 : r2 ∈ s2.erec.runs) (hn : r1.node = r2.node) :
    r1.status = r2.status ∧ r1.retcode = r2.retcode ∧ r1.output = r2.output := by
  classical
  by_contra hcon
  let bad : RunRecord → Prop := fun r => ∃ r' ∈ s2.erec.runs, r.node = r'.node ∧
    ¬ (r.status = r'.status ∧ r.retcode = r'.retcode ∧ r.output = r'.output)
  have hne : (s1.erec.runs.filter (fun r => bad r)) ≠ [] := by
    intro h
    have : r1 ∈ s1.erec.runs.filter (fun r => bad r) := by
      simp only [List.mem_filter, decide_eq_true_eq]
      exact ⟨h1, r2, h2, hn, hcon⟩
    rw [h] at this; cases this
  obtain ⟨r, hr, hmin⟩ := exists_minimal
    (R := fun a b : RunRecord => AfterEdge C.dag a.node b.node)
    (by
      rintro ⟨n, hn⟩
      exact hI1.acyc ha1
        ⟨n.node, Relation.TransGen.lift (p := AfterEdge C.dag) RunRecord.node (fun _ _ h => h) _ _ hn⟩)
    _ _ (Nat.le_refl _) hne
  simp only [List.mem_filter, decide_eq_true_eq] at hr hmin
  obtain ⟨hr, r', hr', hnn, hdis⟩ := hr
  apply hdis
  have k1 := hI1.recs r hr
  have k2 := hI2.recs r' hr'
  have hrn : r.node ∈ C.dag.nodes := hI1.inNodes r.node (by
    unfold allNodes; simp only [List.mem_append]
    exact .inl (.inr (List.mem_map_of_mem hr)))
  -- required tasks agree
  have hfail : ∀ m, HasEdge C.dag .requires r.node m → (s1.flags.failed m = true ↔ s2.flags.failed m = true) := by
    intro m hm
    obtain ⟨q1, hq1, hqn1⟩ := List.mem_map.1 ((hI1.doneIff m).1 (k1.preds m (hra _ _ hm)))
    obtain ⟨q2, hq2, hqn2⟩ := List.mem_map.1 ((hI2.doneIff m).1 (k2.preds m (hra _ _ (hnn ▸ hm))))
    have hst : q1.status = q2.status := by
      by_contra hc
      exact hmin q1 ⟨hq1, q2, hq2, hqn1.trans hqn2.symm, fun h => hc h.1⟩ (hra _ _ (hqn1 ▸ hm))
    have u1 : ∀ x ∈ s1.erec.runs, x.node = m → x = q1 := fun x hx hxm =>
      List.inj_on_of_nodup_map (by
        have h := hI1.nodup
        unfold allNodes at h
        rw [List.nodup_append, List.nodup_append] at h
        exact h.1.2.1) hx hq1 (hxm.trans hqn1.symm)
    have u2 : ∀ x ∈ s2.erec.runs, x.node = m → x = q2 := fun x hx hxm =>
      List.inj_on_of_nodup_map (by
        have h := hI2.nodup
        unfold allNodes at h
        rw [List.nodup_append, List.nodup_append] at h
        exact h.1.2.1) hx hq2 (hxm.trans hqn2.symm)
    rw [hI1.failedIff, hI2.failedIff]
    constructor
    · rintro ⟨x, hx, hxm, hb⟩
      rw [u1 x hx hxm, hst] at hb
      exact ⟨q2, hq2, hqn2, hb⟩
    · rintro ⟨x, hx, hxm, hb⟩
      rw [u2 x hx hxm, ← hst] at hb
      exact ⟨q1, hq1, hqn1, hb⟩
  have hdep : r.status = .depf ↔ r'.status = .depf := by
    constructor
    · intro h
      obtain ⟨_, _, m, hm, hf⟩ := k1.depf h
      by_contra hc
      have := k2.noFail hc m (hnn ▸ hm) (hra _ _ (hnn ▸ hm))
      rw [(hfail m hm).1 hf] at this; cases this
    · intro h
      obtain ⟨_, _, m, hm, hf⟩ := k2.depf h
      by_contra hc
      have hm' : HasEdge C.dag .requires r.node m := by rw [hnn]; exact hm
      have := k1.noFail hc m hm' (hra _ _ hm')
      rw [(hfail m hm').2 hf] at this; cases this
  have hinv : s1.flags.inval r.node = s2.flags.inval r'.node := by
    rw [← hnn]
    have a1 := hI1.invalActive ha1 _ hrn
    have a2 := hI2.invalActive ha2 _ hrn
    by_cases hst : Stale C.dag C.ask r.node
    · rw [a1.1 hst, a2.1 hst]
    · rw [a1.2 hst, a2.2 hst]
  have ran : ∀ {R : Node → List Res} {s : St} {x : RunRecord}, RecOK (C.withRes R) s x →
      s.flags.inval x.node = .invalid → x.status ≠ .depf → x.status = .ok ∨ x.status = .fail := by
    intro R s x hx hi hd
    cases hs : x.status with
    | ok => exact .inl rfl
    | fail => exact .inr rfl
    | skip => have := (hx.skip hs).2.2; rw [hi] at this; cases this
    | depf => exact absurd hs hd
  have skp : ∀ {R : Node → List Res} {s : St} {x : RunRecord}, RecOK (C.withRes R) s x →
      s.flags.inval x.node = .valid → x.status ≠ .depf → x.status = .skip := by
    intro R s x hx hi hd
    cases hs : x.status with
    | ok => have := (hx.ran (.inl hs)).1; rw [hi] at this; cases this
    | fail => have := (hx.ran (.inr hs)).1; rw [hi] at this; cases this
    | skip => rfl
    | depf => exact absurd hs hd
  by_cases hd : r.status = .depf
  · have hd' := hdep.1 hd
    obtain ⟨a, b, _⟩ := k1.depf hd
    obtain ⟨a', b', _⟩ := k2.depf hd'
    exact ⟨hd.trans hd'.symm, a.trans a'.symm, b.trans b'.symm⟩
  · have hd' : r'.status ≠ .depf := fun h => hd (hdep.2 h)
    by_cases hst : Stale C.dag C.ask r.node
    · have hi := (hI1.invalActive ha1 _ hrn).1 hst
      have o1 := ran k1 hi hd
      have o2 := ran k2 (by rw [← hinv]; exact hi) hd'
      obtain ⟨_, a, b, c⟩ := k1.ran o1
      obtain ⟨_, a', b', c'⟩ := k2.ran o2
      have hrc : r.retcode = r'.retcode := by
        have a2 : (asyncLambda (C.outcome r'.node)).retcode = some r'.retcode := a'
        have a1 : (asyncLambda (C.outcome r.node)).retcode = some r.retcode := a
        rw [hnn, a2] at a1
        injection a1 with a1
        exact a1.symm
      have hout : r.output = r'.output := by
        have b2 : r'.output = (asyncLambda (C.outcome r'.node)).output := b'
        have b1 : r.output = (asyncLambda (C.outcome r.node)).output := b
        rw [b1, b2, hnn]
      refine ⟨?_, hrc, hout⟩
      rcases o1 with o1 | o1 <;> rcases o2 with o2 | o2
      · rw [o1, o2]
      · exact absurd (hrc ▸ (c'.1 o2)) (fun h => by
          have := c.2 h; rw [o1] at this; cases this)
      · exact absurd (hrc ▸ (c.1 o1)) (fun h => by
          have := c'.2 h; rw [o2] at this; cases this)
      · rw [o1, o2]
    · have hi := (hI1.invalActive ha1 _ hrn).2 hst
      have o1 := skp k1 hi hd
      have o2 := skp k2 (by rw [← hinv]; exact hi) hd'
      obtain ⟨a, b, _⟩ := k1.skip o1
      obtain ⟨a', b', _⟩ := k2.skip o2
      exact ⟨o1.trans o2.symm, a.trans a'.symm, b.trans b'.symm⟩

/-- **C107**: such changes do not change any result.  A task that has a record, in an execution with
changes and in one without, has the same status, return code and output in both. -/
theorem C107_results (C : Cfg) (hwf : C.dag.WF)
    (hra : ∀ a b, HasEdge C.dag .requires a b → AfterEdge C.dag a b)
    (l : List ((Node → List Res) × Move)) (hc : CarefulCh C l) (ha : (execCh C l).phase.active = true)
    (ms : List Move) (hm : (exec C ms).phase.active = true) (r1 r2 : RunRecord)
    (h1 : r1 ∈ (execCh C l).erec.runs) (h2 : r2 ∈ (exec C ms).erec.runs) (hn : r1.node = r2.node) :
    r1.status = r2.status ∧ r1.retcode = r2.retcode ∧ r1.output = r2.output := by
  obtain ⟨R0, hI, _⟩ := chinv_exec hwf l hc
  exact same_results (R2 := C.resources) hI (inv_exec hwf ms) ha hm hra h1 h2 hn

theorem runCh_exec (C : Cfg) (σ : Nat → (Node → List Res) × Move) (i : Nat) :
    runCh C σ i = execCh C ((List.range i).map σ) := by
  induction i with
  | zero => rfl
  | succ i ih => rw [List.range_succ, List.map_append, List.map_singleton, execCh_snoc, ← ih]; rfl

/-- **C107**: such changes do not keep an execution from completing, even if they never end.  If `tick()`
is called again and again, every thread gets to run and every job ends, the execution completes. -/
theorem C107_completes (C : Cfg) (hG : Healthy C) (σ : Nat → (Node → List Res) × Move)
    (hc : ∀ i, CarefulCh C ((List.range i).map σ))
    (ticks : ∀ i, ∃ j, i ≤ j ∧ (σ j).2 = .ctl)
    (begins : ∀ i n, (runCh C σ i).worker n = .queued → ∃ j, i ≤ j ∧ (σ j).2 = .begin n)
    (ends : ∀ i n, (runCh C σ i).worker n = .running → ∃ j, i ≤ j ∧ (σ j).2 = .finish n)
    (noFault : ∀ i, (σ i).2 ≠ .ctlFail ∧ (σ i).2 ≠ .destroy ∧ ∀ f, (σ i).2 ≠ .fault f) :
    ∃ i, (runCh C σ i).phase = .finished := by
  have hGR : ∀ R, Healthy (C.withRes R) := fun R => ⟨hG.wf, hG.acyclic, hG.jobs, hG.answers, hG.codes⟩
  have hch : ∀ i, ChInv C (listed C ((List.range i).map σ)) (runCh C σ i) := fun i => by
    rw [runCh_exec]; exact chinv_exec hG.wf _ (hc i)
  have hIR : ∀ i, (runCh C σ i).phase.active = true →
      Inv (C.withRes (σ i).1) (runCh C σ i) := by
    intro i ha
    obtain ⟨R0, hI, he⟩ := hch i
    have h1 := he ha
    subst h1
    refine hI.change ha ?_
    have h2 := hc (i + 1) ((List.range i).map σ) (σ i).1 (σ i).2 []
      (by rw [List.range_succ, List.map_append]; rfl)
    rw [← runCh_exec] at h2
    exact h2
  have hpro : ∀ R, (step (C.withRes R) St.init .ctl).phase.active = true := by
    intro R
    show (prologue (C.withRes R) St.init).phase.active = true
    rw [prologue_healthy (hGR R)]; rfl
  have hstart : ∀ i, runCh C σ i = St.init ∨ ∃ j, (runCh C σ j).phase.active = true := by
    intro i
    induction i with
    | zero => exact .inl rfl
    | succ i ih =>
      rcases ih with ih | ih
      · have hs : runCh C σ (i + 1) = step (C.withRes (σ i).1) St.init (σ i).2 := by rw [← ih]; rfl
        cases hm : (σ i).2 with
        | ctl => right; exact ⟨i + 1, by rw [hs, hm]; exact hpro _⟩
        | ctlFail => exact absurd hm (noFault _).1
        | destroy => exact absurd hm (noFault _).2.1
        | fault f => exact absurd hm ((noFault _).2.2 f)
        | begin n => left; rw [hs, hm]; rfl
        | finish n => left; rw [hs, hm]; rfl
      · exact .inr ih
  have : ∃ i, (runCh C σ i).phase.active = true := by
    obtain ⟨j, _, hj⟩ := ticks 0
    rcases hstart j with h | h
    · refine ⟨j + 1, ?_⟩
      rw [show runCh C σ (j + 1) = step (C.withRes (σ j).1) (runCh C σ j) (σ j).2 from rfl, h, hj]
      exact hpro _
    · exact h
  obtain ⟨i, hi⟩ := this
  obtain ⟨k, _, hk⟩ := fair_run (D := fun i => C.withRes (σ i).1) (S := runCh C σ) (σ := fun i => (σ i).2)
    (fun i => hGR _) (fun i => rfl) hIR ticks begins ends noFault _ i hi (Nat.le_refl _)
  exact ⟨k, hk⟩

/-! ## changes that do not respect the running tasks -/

/-- moves made while the tasks list the resources `R` -/
def during (R : Node → List Res) (ms : List Move) : List ((Node → List Res) × Move) := ms.map fun m => (R, m)

theorem careful_snoc {l : List ((Node → List Res) × Move)} {p : (Node → List Res) × Move} :
    CarefulCh C (l ++ [p]) ↔ CarefulCh C l ∧ Respects C (execCh C l) (listed C l) p.1 := by
  constructor
  · exact fun h => ⟨h.left, h l p.1 p.2 [] rfl⟩
  · rintro ⟨h1, h2⟩ pre R m post he
    rcases List.eq_nil_or_concat post with rfl | ⟨post', x, rfl⟩
    · obtain ⟨rfl, e⟩ := List.append_inj' he rfl
      injection e with e _
      rw [e] at h2; exact h2
    · refine h1 pre R m post' ?_
      have : l ++ [p] = (pre ++ (R, m) :: post') ++ [x] := by rw [he]; simp
      exact (List.append_inj' this rfl).1

theorem respects_refl (C : Cfg) (s : St) (R : Node → List Res) : Respects C s R R :=
  fun _ _ => ⟨fun _ _ => Iff.rfl, fun _ _ _ hr => .inl hr⟩

theorem careful_during {l : List ((Node → List Res) × Move)} {R : Node → List Res} (h : CarefulCh C l)
    (hr : Respects C (execCh C l) (listed C l) R) (ms : List Move) : CarefulCh C (l ++ during R ms) := by
  induction ms using List.reverseRecOn with
  | nil => simpa [during] using h
  | append_singleton ms m ih =>
    have : l ++ during R (ms ++ [m]) = (l ++ during R ms) ++ [(R, m)] := by simp [during]
    rw [this, careful_snoc]
    refine ⟨ih, ?_⟩
    rcases List.eq_nil_or_concat ms with rfl | ⟨ms', x, rfl⟩
    · simpa [during] using hr
    · have : listed C (l ++ during R (ms' ++ [x])) = R := by
        have e : l ++ during R (ms' ++ [x]) = (l ++ during R ms') ++ [(R, x)] := by simp [during]
        unfold listed; rw [e, List.getLast?_concat]
      rw [List.concat_eq_append, this]
      exact respects_refl _ _ _

theorem careful_const (C : Cfg) (ms : List Move) : CarefulCh C (during C.resources ms) := by
  have h := careful_during (C := C) (l := []) (R := C.resources) (fun pre R m post h => by simp at h)
    (respects_refl C St.init C.resources) ms
  exact h

/-- no task waits for a resource any more, except 2 -/
def Ex.less : Node → List Res := fun n => if n = 2 then [7] else []

/-- every task wants the resource -/
def Ex.more : Node → List Res := fun _ => [7]

/-- tasks 1 and 2 use a resource; 1 runs, 3 is the next to be started; the coroutine is suspended -/
def Ex.chPre : List ((Node → List Res) × Move) :=
  during (Ex.par 3).resources (List.replicate 10 .ctl ++ [.begin 1])

/-- the same, and 3 runs as well -/
def Ex.chPre2 : List ((Node → List Res) × Move) :=
  during (Ex.par 3).resources (List.replicate 17 .ctl ++ [.begin 1, .begin 3])

/-- **C107** is false of the code.  The lists are changed once, between two calls of `tick()`.
1. A resource is taken from the list of a running task: it stays occupied for ever, and the execution ends
   with a failed assertion (without assertions it would never end).
2. A resource which task 1 uses is added to the list of task 3, which was not started yet but had been
   chosen: 3 runs at the same time as 1.
3. A resource which task 1 uses is added to the list of task 3, which is running: when 3 is done, the
   resource is free for 2, though 1 still runs. -/
theorem C107_counterexample :
    Healthy (Ex.par 3) ∧
    ((execCh (Ex.par 3) Ex.chPre).phase = .susp false ∧
      (execCh (Ex.par 3) (Ex.chPre ++ during Ex.less ([.finish 1] ++ List.replicate 7 .ctl ++
        [.begin 3, .finish 3] ++ List.replicate 5 .ctl))).phase = .abort) ∧
    (let s := execCh (Ex.par 3) (Ex.chPre ++ during Ex.more (List.replicate 4 .ctl ++ [.begin 3]))
     s.worker 1 = .running ∧ s.worker 3 = .running ∧ 7 ∈ Ex.more 1 ∧ 7 ∈ Ex.more 3) ∧
    ((execCh (Ex.par 3) Ex.chPre2).phase = .susp false ∧
      let s := execCh (Ex.par 3) (Ex.chPre2 ++ during Ex.more ([.finish 3] ++ List.replicate 11 .ctl ++
        [.begin 2]))
      s.worker 1 = .running ∧ s.worker 2 = .running ∧
        7 ∈ (Ex.par 3).resources 1 ∧ 7 ∈ (Ex.par 3).resources 2) := by
  refine ⟨⟨Ex.par_wf 3, ?_, fun _ _ => rfl, fun _ _ => ⟨_, rfl⟩, ?_⟩, by decide +kernel, by decide +kernel,
    by decide +kernel⟩
  · rintro ⟨n, hn⟩
    have : ∀ a b, ¬ AfterEdge (Ex.par 3).dag a b := by rintro a b ⟨e, he, _⟩
    cases hn with
    | single h => exact this _ _ h
    | tail _ h => exact this _ _ h
  · intro n _ rr h
    have : Ex.ret 0 [] = .ret rr := h
    unfold Ex.ret at this
    injection this with this
    rw [← this]; simp

/-- a change that respects the running tasks: while 1 runs, 2 gives up the resource, and 3, which was
chosen already, wants another one; then 2 runs at the same time as 1 -/
example :
    let R : Node → List Res := fun n => if n = 1 then [7] else if n = 3 then [8] else []
    let l := Ex.chPre ++ during R (List.replicate 13 .ctl ++ [.begin 2])
    CarefulCh (Ex.par 3) l ∧
    (execCh (Ex.par 3) l).worker 1 = .running ∧ (execCh (Ex.par 3) l).worker 2 = .running := by
  refine ⟨?_, by decide +kernel, by decide +kernel⟩
  refine careful_during (l := Ex.chPre) (careful_const _ _) ?_ _
  show Respects (Ex.par 3) (execCh (Ex.par 3) Ex.chPre) (Ex.par 3).resources _
  have h : (execCh (Ex.par 3) Ex.chPre).flags.started 2 = false ∧
      (execCh (Ex.par 3) Ex.chPre).flags.started 3 = false := by decide +kernel
  have h8 : ∀ m, 8 ∉ (Ex.par 3).resources m := by
    intro m hm
    change 8 ∈ (if m = 3 then [] else [7]) at hm
    split at hm
    · cases hm
    · simp at hm
  intro n hn
  have hn : n = 3 ∨ n = 2 ∨ n = 1 := by
    have : n ∈ [3, 2, 1] := hn
    simpa using this
  rcases hn with rfl | rfl | rfl
  · refine ⟨fun hp => ?_, fun _ _ r hr => .inr fun m _ => ?_⟩
    · have := hp.1; rw [h.2] at this; cases this
    · have : r = 8 := by simpa using hr
      rw [this]; exact h8 m
  · refine ⟨fun hp => ?_, fun _ _ r hr => ?_⟩
    · have := hp.1; rw [h.1] at this; cases this
    · simp at hr
  · refine ⟨fun _ r => ?_, fun _ _ r hr => .inl ?_⟩
    · exact Iff.rfl
    · exact hr

/-- a resource `r` is occupied, no task that could release it lists it, and the task `n` waits for it -/
structure Leak (C : Cfg) (r : Res) (n : Node) (s : St) : Prop where
  used : r ∈ s.used
  handles : ∀ h ∈ handles s, r ∉ C.resources h.node
  waits : n ∈ s.toProcess
  tp : ∀ m ∈ s.toProcess, m ∈ C.dag.nodes
  phase : s.phase.draining = false
  started : s.phase ≠ .created
  recs : ∀ x ∈ s.erec.runs, x.node ≠ n

variable {r : Res} {n : Node}

theorem Leak.setPhase {s s' : St} (h : Leak C r n s) (h1 : r ∈ s'.used) (h2 : s'.todo = s.todo)
    (h3 : s'.kept = s.kept) (h4 : s'.toProcess = s.toProcess) (h5 : s'.erec = s.erec)
    (h6 : s'.phase.draining = false) (h7 : s'.phase ≠ .created) : Leak C r n s' :=
  ⟨h1, by unfold Joque.handles; rw [h2, h3]; exact h.handles, by rw [h4]; exact h.waits,
    by rw [h4]; exact h.tp, h6, h7, by rw [h5]; exact h.recs⟩

theorem Leak.complete {s : St} (hr : r ∈ C.resources n) (h : Leak C r n s) {sl : Slot} {rest : List Slot}
    (ht : s.todo = sl :: rest) {s' : St} (hu : r ∈ s'.used) (h3 : s'.kept = s.kept)
    (h4 : s'.toProcess = s.toProcess) (h5 : s'.erec = s.erec) (h6 : s'.phase = s.phase) (rec : RunRecord)
    (hrec : rec.node = sl.h.node) : Leak C r n (complete s' sl.ref rest rec) := by
  have hm : sl.h ∈ Joque.handles s := by simp [Joque.handles, ht]
  refine ⟨hu, ?_, ?_, ?_, ?_, ?_, ?_⟩
  · intro x hx
    have hx : x ∈ s'.kept ++ rest.map Slot.h := hx
    rw [h3] at hx
    refine h.handles x ?_
    unfold Joque.handles
    rw [ht]
    simp only [List.mem_append, List.map_cons, List.mem_cons] at hx ⊢
    tauto
  · show n ∈ s'.toProcess; rw [h4]; exact h.waits
  · show ∀ m ∈ s'.toProcess, _; rw [h4]; exact h.tp
  · show s'.phase.draining = false; rw [h6]; exact h.phase
  · show s'.phase ≠ .created; rw [h6]; exact h.started
  · intro x hx
    have hx : x ∈ (s'.erec.push rec).runs := hx
    have hx : x ∈ s'.erec.runs ++ [rec] := hx
    rw [h5] at hx
    rcases List.mem_append.1 hx with hx | hx
    · exact h.recs x hx
    · rw [List.mem_singleton] at hx
      rw [hx, hrec]
      intro e
      exact h.handles _ hm (e ▸ hr)

theorem Leak.collect {s : St} (hr : r ∈ C.resources n) (h : Leak C r n s) {sl : Slot} {rest : List Slot}
    (ht : s.todo = sl :: rest) {s1 : St} {hd : Handle} (hn : hd.node = sl.h.node) (hu : r ∈ s1.used)
    (h3 : s1.kept = s.kept) (h2 : s1.todo = s.todo) (h4 : s1.toProcess = s.toProcess)
    (h5 : s1.erec = s.erec) (h6 : s1.phase = s.phase) : Leak C r n (Joque.collect C s1 sl.ref hd rest) := by
  have hm : sl.h ∈ Joque.handles s := by simp [Joque.handles, ht]
  unfold Joque.collect
  dsimp only
  split
  · exact h.setPhase (s' := { s1 with phase := .ub }) hu h2 h3 h4 h5 rfl (by simp)
  · have hx : r ∈ s1.used.filter (fun x => x ∉ C.resources hd.node) := by
      rw [hn]
      exact List.mem_filter.2 ⟨hu, by simpa using h.handles _ hm⟩
    split
    · apply h.complete hr ht <;> first | exact hx | exact h3 | exact h4 | exact h5 | exact h6 | exact hn
    · apply h.complete hr ht <;> first | exact hx | exact h3 | exact h4 | exact h5 | exact h6 | exact hn

theorem mem_zip_slots : ∀ (p : List Node) (k : List Handle) {sl : Slot}, sl ∈ List.zipWith Slot.mk p k → sl.h ∈ k
  | [], _, sl, h => by simp at h
  | _ :: _, [], sl, h => by simp at h
  | a :: p, b :: k, sl, h => by
    rw [List.zipWith_cons_cons, List.mem_cons] at h
    rcases h with rfl | h
    · simp
    · exact List.mem_cons_of_mem _ (mem_zip_slots p k h)

theorem Leak.clean {s : St} (hr : r ∈ C.resources n) (h : Leak C r n s) (ok : Bool) :
    Leak C r n (cleanStep C s ok false) := by
  unfold cleanStep
  split
  · rename_i ht
    refine ⟨h.used, ?_, h.waits, h.tp, rfl, by simp, h.recs⟩
    intro x hx
    refine h.handles x ?_
    have hx : x ∈ [] ++ (List.zipWith Slot.mk s.passed s.kept).map Slot.h := hx
    unfold Joque.handles
    rw [ht]
    simp only [List.nil_append, List.mem_map] at hx
    obtain ⟨sl, hsl, rfl⟩ := hx
    rw [List.map_nil, List.append_nil]
    exact mem_zip_slots _ _ hsl
  · rename_i sl rest ht
    split
    · unfold startRun
      dsimp only
      split
      · exact h.setPhase h.used rfl rfl rfl rfl rfl (by simp)
      · split
        · apply h.complete hr ht <;> first | exact h.used | rfl
        · split
          · apply h.complete hr ht <;> first | exact h.used | rfl
          · split
            · exact h.collect hr ht (hd := { sl.h with launched := true, start := s.now }) rfl
                (List.mem_append_left _ h.used) rfl rfl rfl rfl rfl
            · split
              · refine ⟨List.mem_append_left _ h.used, ?_, h.waits, h.tp, h.phase, h.started, h.recs⟩
                intro x hx
                have hx : x ∈ s.kept ++ { sl.h with launched := true, start := s.now } :: rest.map Slot.h := hx
                have h0 := h.handles
                unfold Joque.handles at h0
                rw [ht] at h0
                simp only [List.mem_append, List.mem_cons] at hx
                rcases hx with hx | rfl | hx
                · exact h0 x (by simp [hx])
                · exact h0 sl.h (by simp)
                · exact h0 x (by
                    simp only [List.mem_append, List.map_cons, List.mem_cons]
                    exact .inr (.inr hx))
              · refine ⟨List.mem_append_left _ h.used, ?_, h.waits, h.tp, rfl, by simp, h.recs⟩
                intro x hx
                have hx : x ∈ s.kept ++ rest.map Slot.h := hx
                have h0 := h.handles
                unfold Joque.handles at h0
                rw [ht] at h0
                refine h0 x ?_
                simp only [List.mem_append, List.map_cons, List.mem_cons] at hx ⊢
                tauto
    · split
      · exact h.collect hr ht rfl h.used rfl rfl rfl rfl rfl
      · refine ⟨h.used, ?_, h.waits, h.tp, h.phase, h.started, h.recs⟩
        intro x hx
        have hx : x ∈ (s.kept ++ [sl.h]) ++ rest.map Slot.h := hx
        have h0 := h.handles
        unfold Joque.handles at h0
        rw [ht] at h0
        refine h0 x ?_
        simpa using hx

theorem Leak.pick {s : St} (hwf : C.dag.WF) (hr : r ∈ C.resources n) (h : Leak C r n s) :
    Leak C r n (pickStep C s) := by
  unfold pickStep
  split
  · exact h.setPhase h.used rfl rfl rfl rfl rfl (by simp)
  · obtain ⟨x, hx, h1, _⟩ := findCandidate_spec (res := C.resources) (f := s.flags) (used := s.used) hwf h.tp
    rw [hx]
    cases x with
    | none =>
      dsimp only
      split
      · exact h.setPhase h.used rfl rfl rfl rfl rfl (by simp)
      · exact h.setPhase h.used rfl rfl rfl rfl rfl (by simp)
    | some m =>
      have hm := (h1 m rfl).1.resFree
      have hrm : r ∉ C.resources m := fun e => hm r e h.used
      refine ⟨h.used, ?_, ?_, ?_, rfl, by simp, h.recs⟩
      · intro x hx
        have hx : x ∈ s.kept ++ (s.todo ++ [(⟨m, { node := m, launched := false, start := 0 }⟩ : Slot)]).map Slot.h := hx
        simp only [List.map_append, List.mem_append, List.map_cons, List.map_nil, List.mem_singleton] at hx
        rcases hx with hx | hx | rfl
        · exact h.handles x (List.mem_append_left _ hx)
        · exact h.handles x (List.mem_append_right _ hx)
        · exact hrm
      · show n ∈ serase m s.toProcess
        rw [mem_serase]
        exact ⟨h.waits, fun e => hrm (e ▸ hr)⟩
      · intro x hx
        have hx : x ∈ serase m s.toProcess := hx
        rw [mem_serase] at hx
        exact h.tp x hx.1

theorem Leak.ctl {s : St} (hwf : C.dag.WF) (hr : r ∈ C.resources n) (h : Leak C r n s) (ok : Bool) :
    Leak C r n (ctlStep C s ok) := by
  have hne : s.toProcess ≠ [] := fun e => by have := h.waits; rw [e] at this; cases this
  unfold ctlStep
  cases hp : s.phase with
  | created => exact absurd hp h.started
  | loopTop => dsimp only; rw [if_neg hne]; exact h.setPhase h.used rfl rfl rfl rfl rfl (by simp)
  | clean d =>
    cases d with
    | false => exact h.clean hr ok
    | true => have := h.phase; rw [hp] at this; cases this
  | pick => exact h.pick hwf hr
  | susp d =>
    cases d with
    | false => exact h.setPhase h.used rfl rfl rfl rfl rfl (by simp)
    | true => have := h.phase; rw [hp] at this; cases this
  | drainTop => have := h.phase; rw [hp] at this; cases this
  | unwinding e =>
    dsimp only
    split
    · exact h.setPhase h.used rfl rfl rfl rfl rfl (by simp)
    · exact h
  | destroying =>
    dsimp only
    split
    · exact h.setPhase h.used rfl rfl rfl rfl rfl (by simp)
    · exact h
  | finished => have := h.phase; rw [hp] at this; cases this
  | threw e => exact h.setPhase h.used rfl rfl rfl rfl rfl (by simp)
  | destroyed => exact h
  | ub => exact h
  | abort => exact h
  | outOfFuel => exact h

theorem Leak.step {s : St} (hwf : C.dag.WF) (hr : r ∈ C.resources n) (h : Leak C r n s) (m : Move) :
    Leak C r n (Joque.step C s m) := by
  have hthrow : ∀ f k, Leak C r n (throwStep C s f k) := by
    intro f k
    unfold throwStep
    dsimp only
    split
    · split
      · split
        · have := h.ctl hwf hr true
          exact this.setPhase this.used rfl rfl rfl rfl rfl (by simp)
        · exact h.setPhase h.used rfl rfl rfl rfl rfl (by simp)
      · exact h.ctl hwf hr true
    · exact h.ctl hwf hr true
  cases m with
  | ctl => exact h.ctl hwf hr true
  | ctlFail => exact h.ctl hwf hr false
  | fault f =>
    cases f with
    | visitor k => exact hthrow _ k
    | memory k => exact hthrow _ k
    | memoryBefore =>
      simp only [Joque.step, faultStep]
      split
      all_goals first
        | exact h.setPhase h.used rfl rfl rfl rfl rfl (by simp)
        | exact h.ctl hwf hr true
  | begin k =>
    simp only [Joque.step]
    split
    · exact h
    · split
      · exact h.setPhase h.used rfl rfl rfl rfl h.phase h.started
      · exact h
  | finish k =>
    simp only [Joque.step]
    split
    · exact h
    · split
      · exact h.setPhase h.used rfl rfl rfl rfl h.phase h.started
      · exact h
  | destroy =>
    show Leak C r n (destroyStep s)
    unfold destroyStep
    split
    all_goals first
      | exact h.setPhase h.used rfl rfl rfl rfl rfl (by simp)
      | exact h

/-- **C107**: taking a resource from a task in progress is always fatal for those that wait for it.  If
after such a change no task that was chosen already lists the resource, a task that waits and lists it is
never executed, and the execution never completes, whatever happens next. -/
theorem C107_leak (C : Cfg) (hwf : C.dag.WF) (l : List ((Node → List Res) × Move)) (hc : CarefulCh C l)
    (hact : (execCh C l).phase.active = true) (R : Node → List Res) (r : Res) (a n : Node)
    (ha : a ∈ C.dag.nodes) (hp : InProgress (execCh C l) a) (hra : r ∈ listed C l a)
    (hgone : ∀ m ∈ C.dag.nodes, m ∉ (execCh C l).toProcess → r ∉ R m)
    (hn : n ∈ (execCh C l).toProcess) (hrn : r ∈ R n) (ms : List Move) :
    let s := execCh C (l ++ during R ms)
    s.phase ≠ .finished ∧ (∀ x ∈ s.erec.runs, x.node ≠ n) ∧ n ∈ s.toProcess := by
  obtain ⟨R0, hI, he⟩ := chinv_exec hwf l hc
  have := he hact
  subst this
  obtain ⟨x, hx, lx, rfl⟩ := hp.handle hI hact ha
  have hin : ∀ h ∈ handles (execCh C l), h.node ∈ C.dag.nodes ∧ h.node ∉ (execCh C l).toProcess := by
    intro h hm
    have hnd := hI.nodup
    unfold allNodes at hnd
    rw [List.nodup_append] at hnd
    refine ⟨hI.inNodes _ ?_, fun e => hnd.2.2 _ ?_ _ e rfl⟩
    · unfold allNodes; simp only [List.mem_append]
      exact .inl (.inl (List.mem_map_of_mem hm))
    · simp only [List.mem_append]
      exact .inl (List.mem_map_of_mem hm)
  have h0 : Leak (C.withRes R) r n (execCh C l) :=
    { used := (hI.launched x hx lx).2.2.2.2.1 r hra
      handles := fun h hm => hgone _ (hin h hm).1 (hin h hm).2
      waits := hn
      tp := fun m hm => hI.inNodes m (by unfold allNodes; simp only [List.mem_append]; exact .inr hm)
      phase := by
        cases hd : (execCh C l).phase.draining with
        | false => rfl
        | true => have := hI.drain hd; rw [this] at hn; cases hn
      started := by intro e; rw [e] at hact; cases hact
      recs := by
        intro y hy e
        have hnd := hI.nodup
        unfold allNodes at hnd
        rw [List.nodup_append] at hnd
        refine hnd.2.2 n ?_ n hn rfl
        simp only [List.mem_append]
        exact .inr (e ▸ List.mem_map_of_mem hy) }
  have key : Leak (C.withRes R) r n (execCh C (l ++ during R ms)) := by
    induction ms using List.reverseRecOn with
    | nil => simpa [during] using h0
    | append_singleton ms m ih =>
      have : l ++ during R (ms ++ [m]) = (l ++ during R ms) ++ [(R, m)] := by simp [during]
      rw [this, execCh_snoc]
      exact ih.step (C := C.withRes R) hwf hrn m
  refine ⟨fun e => ?_, key.recs, key.waits⟩
  have := key.phase
  rw [e] at this; cases this

/-- the first counterexample meets this -/
example :
    CarefulCh (Ex.par 3) Ex.chPre ∧ (execCh (Ex.par 3) Ex.chPre).phase.active = true ∧
    InProgress (execCh (Ex.par 3) Ex.chPre) 1 ∧ 7 ∈ listed (Ex.par 3) Ex.chPre 1 ∧
    (∀ m ∈ (Ex.par 3).dag.nodes, m ∉ (execCh (Ex.par 3) Ex.chPre).toProcess → 7 ∉ Ex.less m) ∧
    2 ∈ (execCh (Ex.par 3) Ex.chPre).toProcess ∧ 7 ∈ Ex.less 2 := by
  refine ⟨?_, by decide +kernel, ⟨by decide +kernel, by decide +kernel⟩, by decide +kernel, by decide +kernel,
    by decide +kernel, by decide +kernel⟩
  exact careful_const _ _

/-! ## the other fields of a task -/

/-- **C107**: the relations of a task are read when the dag is built, and `hidden` is for the reports
only: whatever happens to `depends_on`, `run_after`, `invalidated_by` and `hidden` afterwards does not
change the execution. -/
theorem C107_relations (st st' : Store) (g : Dag) (tc : Nat)
    (hj : ∀ t : TaskId, (st' t).job = (st t).job) (hr : ∀ t : TaskId, (st' t).resources = (st t).resources) :
    execCfg st' g tc = execCfg st g tc := by
  unfold execCfg Cfg.ofJobs
  simp only [hj, hr]

/-- for instance, all relations are dropped -/
example (st : Store) : ∀ t : TaskId,
    ({ st t with dependsOn := [], runAfter := [], invalidatedBy := [] } : Task).job = (st t).job ∧
    ({ st t with dependsOn := [], runAfter := [], invalidatedBy := [] } : Task).resources = (st t).resources :=
  fun _ => ⟨rfl, rfl⟩

end Joque
