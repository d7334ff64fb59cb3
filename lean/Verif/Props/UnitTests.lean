import Verif.Props.Outcome
import Verif.Props.Process
import Verif.Model.Format
import Verif.Model.IList
import Mathlib.Data.List.Rotate

/-!
# C73: what the unit tests of the repository check, for all schedules

The tests run each example with thread counts 0 and 4 under whatever schedule happens.  Here: any
addresses, hash orders, thread count and fair schedule.
-/

namespace Joque

/-- With any thread count and fair schedule, `run()` returns a record satisfying `P`. -/
def AlwaysReturns (E : BEnv) (s : BSt) (P : ExecRecord → Prop) : Prop :=
  ∀ tc σ, Fair (execCfg E.store s.dag tc) σ →
    ∃ i rec, (runSched (execCfg E.store s.dag tc) σ i).resultOut = some (.ret (some rec)) ∧ P rec

/-- a record of exactly the tasks `sel`, with the verdicts `v` -/
structure RecordOf (sel : TaskId → Prop) (v : TaskId → Verdict) (rec : ExecRecord) : Prop where
  nodup : (rec.runs.map RunRecord.t).Nodup
  mem : ∀ t, t ∈ rec.runs.map RunRecord.t ↔ sel t
  total : rec.totalCount = rec.runs.length
  verdict : ∀ r ∈ rec.runs, r.verdict = v r.t

theorem Run.returns {E ts univ visit order filter s} (h : Run E ts univ visit order filter s)
    (hj : JobsOk E.store (Selected E.store ts filter))
    (hc : ¬ OrderCycle E.store (Selected E.store ts filter))
    (ha : ∀ t, Selected E.store ts filter t → ∃ j a, (E.store t).job = some j ∧
      j.isInvalidated = .answer a)
    (v : TaskId → Verdict) (hv : Verdicts E.store (Selected E.store ts filter) v) :
    AlwaysReturns E s (RecordOf (Selected E.store ts filter) v) := by
  intro tc σ hF
  obtain ⟨i, _, _, h3⟩ := C70_run E ts univ visit order filter s h tc hj σ hF
  rcases h3 with ⟨h3, _⟩ | ⟨_, t, j, w, ht, h4, h5, _⟩ | ⟨_, _, rec, h4, h5, h6, h7, h8⟩
  · exact absurd h3 hc
  · obtain ⟨j', a, e1, e2⟩ := ha t ht
    rw [h4] at e1
    cases e1
    rw [h5] at e2
    cases e2
  · exact ⟨i, rec, h4, h5, h6, h7, fun r hr => (h8 v hv r hr).symm⟩

/-- an order that increases along the relation excludes cycles -/
theorem no_cycle {st : Store} {sel : TaskId → Prop} (rank : TaskId → Nat)
    (h : ∀ t d, OrderedAfter st sel t d → rank d < rank t) : ¬ OrderCycle st sel := by
  rintro ⟨t, ht⟩
  have : ∀ a b, Relation.TransGen (OrderedAfter st sel) a b → rank b < rank a := by
    intro a b hab
    induction hab with
    | single hab => exact h _ _ hab
    | tail _ hbc ih => exact Nat.lt_trans (h _ _ hbc) ih
  exact Nat.lt_irrefl _ (this t t ht)

/-- `return { rc };` -/
def returns (rc : Int) : Job := .callable (.ret { retcode := some rc, output := [], log := [] })

theorem returns_stale {st : Store} {t : TaskId} {rc : Int} (h : (st t).job = some (returns rc)) :
    SaysStale st t := ⟨returns rc, _, h, rfl⟩

theorem yields_returns (rc : Int) : Yields (returns rc) rc [] := ⟨rfl, rfl⟩

/-- **C73**, generally: if all jobs are callables that return 0 and the declared order has no cycle,
every task is recorded as OK. -/
theorem C73_all_ok {E ts univ visit order filter s} (h : Run E ts univ visit order filter s)
    (hj : ∀ t, Selected E.store ts filter t → (E.store t).job = some (returns 0))
    (hc : ¬ OrderCycle E.store (Selected E.store ts filter)) :
    AlwaysReturns E s (RecordOf (Selected E.store ts filter) fun _ => ⟨.ok, 0, []⟩) := by
  refine h.returns ⟨fun t ht => by rw [hj t ht]; simp, fun t ht j rr e1 e2 => ?_⟩ hc
    (fun t ht => ⟨_, _, hj t ht, rfl⟩) _ ⟨fun t ht => ?_, fun t ht _ ho => ?_, fun t ht _ _ => ?_⟩
  · rw [hj t ht] at e1
    cases e1
    simp only [returns, Job.run, defaultTraitsRun, JobOut.ret.injEq] at e2
    subst e2
    simp
  · rintro ⟨d, _, hd | hd⟩ <;> cases hd
  · exact absurd ⟨t, .refl, returns_stale (hj t ht)⟩ ho
  · exact ⟨_, hj t ht, yields_returns 0, rfl⟩

/-- the tasks of a set without subsets -/
theorem selected_flat {st : Store} {entries : List (Str × TaskId)} {t : TaskId}
    (hcl : ∀ e ∈ entries, ∀ d ∈ (st e.2).dependsOn, d ∈ entries.map Prod.snd) :
    Selected st (.mk entries []) [] t ↔ t ∈ entries.map Prod.snd := by
  constructor
  · rintro ⟨p, u, hat, _, hr⟩
    have hu : u ∈ entries.map Prod.snd := by
      cases hat with
      | here hm => exact List.mem_map.2 ⟨_, hm, rfl⟩
      | sub hm _ => cases hm
    induction hr with
    | refl => exact hu
    | tail _ hbc ih =>
      obtain ⟨e, he, rfl⟩ := List.mem_map.1 ih
      exact hcl e he _ hbc
  · intro ht
    obtain ⟨e, he, rfl⟩ := List.mem_map.1 ht
    exact ⟨[e.1], e.2, .here he, List.nil_infix, .refl⟩

/-- `task{ .job = f, .depends_on = deps, .run_after = after }` where `f` returns `rc` -/
def plain (rc : Int) (deps after : List TaskId) : Task :=
  { job := some (returns rc), dependsOn := deps, runAfter := after, invalidatedBy := []
    resources := [], hidden := false }

/-- **C73**, tests `basic` and `dep` (test/basic_utest.cpp:41-103) for any number of tasks: jobs
return 0, and each task depends on tasks created before it. -/
theorem C73_dep {E : BEnv} {entries : List (Str × TaskId)} {univ visit order s}
    (h : Run E (.mk entries []) univ visit order [] s) (created : TaskId → Nat)
    (hst : ∀ e ∈ entries, ∃ deps, E.store e.2 = plain 0 deps [] ∧
      ∀ d ∈ deps, d ∈ entries.map Prod.snd ∧ created d < created e.2) :
    AlwaysReturns E s (RecordOf (· ∈ entries.map Prod.snd) fun _ => ⟨.ok, 0, []⟩) ∧
    ∀ tc ms pre post A b,
      (exec (execCfg E.store s.dag tc) ms).trace = pre ++ Event.jobBegin A b :: post →
      ∀ B ∈ s.dag.nodes, s.dag.task B ∈ (E.store (s.dag.task A)).dependsOn →
        JobEnded pre B := by
  have hsel : Selected E.store (.mk entries []) [] = (· ∈ entries.map Prod.snd) := by
    funext t
    refine propext (selected_flat fun e he d hd => ?_)
    obtain ⟨deps, h1, h2⟩ := hst e he
    rw [h1] at hd
    exact (h2 d hd).1
  have hst' : ∀ t, Selected E.store (.mk entries []) [] t → ∃ deps, E.store t = plain 0 deps [] ∧
      ∀ d ∈ deps, d ∈ entries.map Prod.snd ∧ created d < created t := fun t ht => by
    rw [hsel] at ht
    obtain ⟨e, he, rfl⟩ := List.mem_map.1 ht
    exact hst e he
  constructor
  · rw [← hsel]
    refine C73_all_ok h (fun t ht => ?_) (no_cycle created fun t d htd => ?_)
    · obtain ⟨deps, h1, _⟩ := hst' t ht
      rw [h1]
      rfl
    · obtain ⟨ht, _, hd⟩ := htd
      obtain ⟨deps, h1, h2⟩ := hst' t ht
      rw [h1] at hd
      rcases hd with hd | hd
      · exact (h2 d hd).2
      · cases hd
  · intro tc ms pre post A b htr B hB hdep
    have hwf := h.wf tc
    obtain ⟨hA, _, _⟩ := C02_at_most_once _ hwf ms pre post A b htr
    have hAB := h.after hA hB (.inl hdep)
    obtain ⟨hrec, hrun, hpost⟩ := C01_ordering _ hwf ms pre post A B b htr hAB
    obtain ⟨r, hr, hrn⟩ := hrec
    have hr' : r ∈ recsOf (exec (execCfg E.store s.dag tc) ms).trace := by
      rw [htr]
      unfold recsOf at hr ⊢
      rw [List.filterMap_append]
      exact List.mem_append_left _ hr
    have hnode : ∀ q ∈ recsOf (exec (execCfg E.store s.dag tc) ms).trace, q.node ∈ s.dag.nodes :=
      (C02_no_double_record _ hwf ms).2
    have hfail : ∀ q ∈ recsOf (exec (execCfg E.store s.dag tc) ms).trace, q.status ≠ .fail := by
      intro q hq hf
      have hm := C06_status_meaning _ hwf ms q hq
      rw [hf] at hm
      obtain ⟨deps, h1, _⟩ := hst' _ (h.sel (hnode q hq))
      have hout : (execCfg E.store s.dag tc).outcome q.node = (returns 0).run := by
        simp only [execCfg, Cfg.ofJobs, h1, plain]
      obtain ⟨_, hne, ⟨rr, e1, e2, _⟩ | ⟨_, w, e1, _⟩ | ⟨_, e1, _⟩⟩ := hm
      · rw [hout] at e1
        cases e1
        exact hne (Option.some.inj e2).symm
      · rw [hout] at e1; cases e1
      · rw [hout] at e1; cases e1
    have hdepf : ∀ k, ∀ q ∈ recsOf (exec (execCfg E.store s.dag tc) ms).trace,
        created (s.dag.task q.node) < k → q.status ≠ .depf := by
      intro k
      induction k with
      | zero => intro q _ hk; exact absurd hk (Nat.not_lt_zero _)
      | succ k ih =>
        intro q hq hk hd
        obtain ⟨q', hq', hreq, hbad⟩ := C05_only_if _ hwf ms q hq hd
        have hreq' := (h.requires_iff (hnode q hq) (hnode q' hq')).1 hreq
        obtain ⟨deps, h1, h2⟩ := hst' _ (h.sel (hnode q hq))
        rw [h1] at hreq'
        have hlt := (h2 _ hreq').2
        rcases hbad with hbad | hbad
        · exact hfail q' hq' hbad
        · exact ih q' hq' (by omega) hbad
    have hbeg : JobBegan (exec (execCfg E.store s.dag tc) ms).trace B := by
      obtain ⟨deps, h1, _⟩ := hst' _ (h.sel hB)
      rw [← hrn] at h1 ⊢
      have hskip : r.status ≠ .skip := by
        intro hsk
        have hm := C06_status_meaning _ hwf ms r hr'
        rw [hsk] at hm
        refine hm.2.2.2.1 ⟨r.node, .refl, ?_⟩
        rw [h.selfStale_iff]
        exact returns_stale (by rw [h1]; rfl)
      have hT := tinv_exec hwf ms
      refine (began_of_status hT (by rw [← hT.recs]; exact hr')).1.2 ?_
      cases hst : r.status with
      | ok => exact .inl rfl
      | skip => exact absurd hst hskip
      | depf => exact absurd hst (hdepf _ r hr' (Nat.lt_succ_self _))
      | fail => exact absurd hst (hfail r hr')
    obtain ⟨b', hb'⟩ := hbeg
    rw [htr] at hb'
    rcases List.mem_append.1 hb' with hb' | hb'
    · by_contra hne
      exact hrun ⟨⟨b', hb'⟩, hne⟩
    · rcases List.mem_cons.1 hb' with hb' | hb'
      · cases hb'
        obtain ⟨deps, h1, h2⟩ := hst' _ (h.sel hB)
        rw [h1] at hdep
        exact absurd (h2 _ hdep).2 (Nat.lt_irrefl _)
      · exact absurd ⟨b', hb'⟩ hpost

/-- **C73**, tests `depf` and `failed_dep` (test/basic_utest.cpp:105-130,173-198) for a chain of any
length: the first task fails, each other task depends on the previous one.  Only the first job
runs. -/
theorem C73_depf {E : BEnv} {entries : List (Str × TaskId)} {univ visit order s}
    (h : Run E (.mk entries []) univ visit order [] s) (a : TaskId) (rc : Int) (hrc : rc ≠ 0)
    (created : TaskId → Nat) (ha : a ∈ entries.map Prod.snd) (hsta : E.store a = plain rc [] [])
    (hst : ∀ t ∈ entries.map Prod.snd, t ≠ a → ∃ d c, E.store t = plain c [d] [] ∧
      d ∈ entries.map Prod.snd ∧ created d < created t) :
    AlwaysReturns E s (RecordOf (· ∈ entries.map Prod.snd)
      fun t => if t = a then ⟨.fail, rc, []⟩ else ⟨.depf, 0, []⟩) := by
  have hsel : Selected E.store (.mk entries []) [] = (· ∈ entries.map Prod.snd) := by
    funext t
    refine propext (selected_flat fun e he d hd => ?_)
    by_cases hea : e.2 = a
    · rw [hea, hsta] at hd; cases hd
    · obtain ⟨d', c, h1, h2, _⟩ := hst e.2 (List.mem_map_of_mem he) hea
      rw [h1] at hd
      rw [List.mem_singleton.1 hd]
      exact h2
  have hjob : ∀ t, Selected E.store (.mk entries []) [] t →
      ∃ c, (E.store t).job = some (returns c) := fun t ht => by
    rw [hsel] at ht
    by_cases hta : t = a
    · exact ⟨rc, by rw [hta, hsta]; rfl⟩
    · obtain ⟨d', c, h1, _⟩ := hst t ht hta
      exact ⟨c, by rw [h1]; rfl⟩
  rw [← hsel]
  have hdepf : ∀ t, Selected E.store (.mk entries []) [] t → t ≠ a → DepFailed E.store
      (fun t => if t = a then ⟨.fail, rc, []⟩ else ⟨.depf, 0, []⟩) t := fun t ht hta => by
    rw [hsel] at ht
    obtain ⟨d, c, h1, _⟩ := hst t ht hta
    refine ⟨d, by rw [h1]; exact List.mem_singleton_self d, ?_⟩
    by_cases hda : d = a
    · left; dsimp only; rw [if_pos hda]
    · right; dsimp only; rw [if_neg hda]
  have hna : ∀ v, ¬ DepFailed E.store v a := by
    rintro v ⟨d, hd, _⟩
    rw [hsta] at hd
    cases hd
  refine h.returns ⟨fun t ht => ?_, fun t ht j rr e1 e2 => ?_⟩ (no_cycle created fun t d htd => ?_)
    (fun t ht => ?_) _ ⟨fun t ht hdf => ?_, fun t ht hdf ho => ?_, fun t ht hdf _ => ?_⟩
  · obtain ⟨c, hc⟩ := hjob t ht
    rw [hc]; simp
  · obtain ⟨c, hc⟩ := hjob t ht
    rw [hc] at e1
    cases e1
    simp only [returns, Job.run, defaultTraitsRun, JobOut.ret.injEq] at e2
    subst e2
    simp
  · obtain ⟨ht, _, hd⟩ := htd
    rw [hsel] at ht
    by_cases hta : t = a
    · rw [hta, hsta] at hd; rcases hd with hd | hd <;> cases hd
    · obtain ⟨d', c, h1, _, h3⟩ := hst t ht hta
      rw [h1] at hd
      rcases hd with hd | hd
      · rw [List.mem_singleton.1 hd]; exact h3
      · cases hd
  · obtain ⟨c, hc⟩ := hjob t ht
    exact ⟨_, _, hc, rfl⟩
  · rcases Classical.em (t = a) with rfl | hta
    · exact absurd hdf (hna _)
    · rw [if_neg hta]
  · obtain ⟨c, hc⟩ := hjob t ht
    exact absurd ⟨t, .refl, returns_stale hc⟩ ho
  · rcases Classical.em (t = a) with rfl | hta
    · refine ⟨returns rc, by rw [hsta]; rfl, ?_⟩
      simp only [if_true]
      exact ⟨yields_returns rc, by rw [if_neg hrc]⟩
    · exact absurd (hdepf t ht hta) hdf

/-- **C73**, test `filter` (test/basic_utest.cpp:132-171) for any names and filter: tasks whose full
name does not contain the filter are neither run nor recorded, even if others run after them. -/
theorem C73_filter {E : BEnv} {entries : List (Str × TaskId)} {univ visit order s} {filter : Str}
    (h : Run E (.mk entries []) univ visit order filter s)
    (hst : ∀ e ∈ entries, ∃ after, E.store e.2 = plain 0 [] after ∧
      ∀ d ∈ after, ∀ e' ∈ entries, e'.2 = d → ¬ filter <:+: fullName [e'.1]) :
    AlwaysReturns E s (RecordOf (fun t => ∃ e ∈ entries, e.2 = t ∧ filter <:+: fullName [e.1])
      fun _ => ⟨.ok, 0, []⟩) := by
  have hdep : ∀ t, (∃ e ∈ entries, e.2 = t) → (E.store t).dependsOn = [] := by
    rintro t ⟨e, he, rfl⟩
    obtain ⟨after, h1, _⟩ := hst e he
    rw [h1]; rfl
  have hsel : Selected E.store (.mk entries []) filter =
      fun t => ∃ e ∈ entries, e.2 = t ∧ filter <:+: fullName [e.1] := by
    funext t
    apply propext
    constructor
    · rintro ⟨p, u, hat, hf, hr⟩
      cases hat with
      | sub hm _ => cases hm
      | here hm =>
        rename_i n
        have hu : u = t := by
          rcases Relation.ReflTransGen.cases_head hr with h | ⟨c, hc, _⟩
          · exact h
          · unfold DependsOn at hc
            rw [hdep u ⟨_, hm, rfl⟩] at hc
            cases hc
        exact ⟨(n, u), hm, hu, hf⟩
    · rintro ⟨e, he, rfl, hf⟩
      exact ⟨[e.1], e.2, .here he, hf, .refl⟩
  rw [← hsel]
  refine C73_all_ok h (fun t ht => ?_) (no_cycle (fun _ => 0) fun t d htd => ?_)
  · rw [hsel] at ht
    obtain ⟨e, he, rfl, _⟩ := ht
    obtain ⟨after, h1, _⟩ := hst e he
    rw [h1]; rfl
  · obtain ⟨ht, hd, hor⟩ := htd
    rw [hsel] at ht hd
    obtain ⟨e, he, rfl, _⟩ := ht
    obtain ⟨e', he', h3, h4⟩ := hd
    obtain ⟨after, h1, h2⟩ := hst e he
    rw [h1] at hor
    rcases hor with hor | hor
    · cases hor
    · exact absurd h4 (h2 d hor e' he' h3)

/-- the names of the test -/
example : "//my_test".toList <:+: fullName ["my_test_0".toList] ∧
    "//my_test".toList <:+: fullName ["my_test_1".toList] ∧
    ¬ "//my_test".toList <:+: fullName ["unwanted_test".toList] := by decide +kernel

/-- the dag of the tests with three nodes (test/basic_utest.cpp:219-239,254-271), at any addresses -/
def ringDag (k : EKind) (n1 n2 n3 : Node) (task : Node → TaskId) : Dag :=
  { nodes := [n3, n2, n1], edges := [⟨n3, n1, k⟩, ⟨n2, n3, k⟩, ⟨n1, n2, k⟩]
    name := fun n => if n = n1 then "//test1".toList else if n = n2 then "//test2".toList
      else "//test3".toList
    task := task }

theorem ring_wf {k : EKind} {n1 n2 n3 : Node} {task : Node → TaskId} (h12 : n1 ≠ n2) (h13 : n1 ≠ n3)
    (h23 : n2 ≠ n3) : (ringDag k n1 n2 n3 task).WF := by
  constructor
  · change [n3, n2, n1].Nodup
    simp only [List.nodup_cons, List.mem_cons, List.not_mem_nil, or_false, not_or, not_false_eq_true,
      List.nodup_nil, and_true]
    exact ⟨⟨h23.symm, h13.symm⟩, h12.symm⟩
  · intro e he
    change e ∈ [Edge.mk n3 n1 k, ⟨n2, n3, k⟩, ⟨n1, n2, k⟩] at he
    change e.src ∈ [n3, n2, n1] ∧ e.tgt ∈ [n3, n2, n1]
    simp only [List.mem_cons, List.not_mem_nil, or_false] at he
    rcases he with rfl | rfl | rfl <;> simp

theorem ring_edge {k : EKind} {n1 n2 n3 : Node} {task : Node → TaskId} {k' : EKind} {a b : Node} :
    HasEdge (ringDag k n1 n2 n3 task) k' a b ↔
      k' = k ∧ ((a = n3 ∧ b = n1) ∨ (a = n2 ∧ b = n3) ∨ (a = n1 ∧ b = n2)) := by
  simp only [HasEdge, ringDag, List.mem_cons, Edge.mk.injEq, List.not_mem_nil, or_false]
  constructor
  · rintro (⟨h1, h2, h3⟩ | ⟨h1, h2, h3⟩ | ⟨h1, h2, h3⟩) <;> simp [h1, h2, h3]
  · rintro ⟨rfl, ⟨h1, h2⟩ | ⟨h1, h2⟩ | ⟨h1, h2⟩⟩ <;> simp [h1, h2]

/-- **C73**, test `cyclic_invalidation` (test/basic_utest.cpp:217-240): a cycle of INVALIDATED_BY edges
is no error.  Everything runs if the first task is out of date, nothing otherwise. -/
theorem C73_cyclic_invalidation (n1 n2 n3 : Node) (h12 : n1 ≠ n2) (h13 : n1 ≠ n3) (h23 : n2 ≠ n3)
    (stale : Bool) (C : Cfg) (hdag : ∃ task, C.dag = ringDag .invalidatedBy n1 n2 n3 task)
    (hjob : ∀ n, C.hasJob n = true)
    (hask : ∀ n, C.ask n = .answer ⟨if n = n1 then stale else false, []⟩)
    (hout : ∀ n, C.outcome n = .ret ⟨some 0, [], []⟩) (σ : Nat → Move) (hF : Fair C σ) :
    ∃ i, (runSched C σ i).phase = .finished ∧ (runSched C σ i).erec.totalCount = 3 ∧
      (runSched C σ i).erec.stats.get .skip = if stale then 0 else 3 := by
  obtain ⟨task, hdag⟩ := hdag
  have hwf : C.dag.WF := by rw [hdag]; exact ring_wf h12 h13 h23
  have hH : Healthy C :=
    { wf := hwf
      acyclic := by
        rintro ⟨n, hn⟩
        rw [hdag] at hn
        obtain ⟨m, hm, _⟩ := Relation.TransGen.head'_iff.1 hn
        exact absurd (ring_edge.1 hm).1 (by decide)
      jobs := fun n _ => hjob n
      answers := fun n _ => ⟨_, hask n⟩
      codes := fun n _ rr hrr => by rw [hout n] at hrr; cases hrr; simp }
  obtain ⟨i, hi⟩ := C11_completes C hH σ hF
  refine ⟨i, hi, ?_⟩
  rw [runSched_exec] at hi ⊢
  obtain ⟨h1, _, h3⟩ := C02_one_record C hwf _ hi
  refine ⟨by rw [h3, hdag]; rfl, ?_⟩
  have hlen : (exec C ((List.range i).map σ)).erec.runs.length = 3 := by
    have := h1.length_eq
    rw [List.length_map, hdag] at this
    exact this
  rw [(C13_stats C hwf _ _ (.inl rfl)).1]
  have hT := tinv_exec hwf ((List.range i).map σ)
  have key : ∀ r ∈ (exec C ((List.range i).map σ)).erec.runs, r.status = .skip ↔ stale = false := by
    intro r hr
    have hrn : r.node ∈ C.dag.nodes := h1.mem_iff.1 (List.mem_map_of_mem hr)
    have hr' : r ∈ recsOf (exec C ((List.range i).map σ)).trace := by rw [hT.recs]; exact hr
    have hm := C06_status_meaning C hwf _ r hr'
    have hreach : Relation.ReflTransGen (HasEdge C.dag .invalidatedBy) r.node n1 := by
      rw [hdag] at hrn ⊢
      have e31 : HasEdge (ringDag .invalidatedBy n1 n2 n3 task) .invalidatedBy n3 n1 :=
        ring_edge.2 ⟨rfl, .inl ⟨rfl, rfl⟩⟩
      have e23 : HasEdge (ringDag .invalidatedBy n1 n2 n3 task) .invalidatedBy n2 n3 :=
        ring_edge.2 ⟨rfl, .inr (.inl ⟨rfl, rfl⟩)⟩
      simp only [ringDag, List.mem_cons, List.not_mem_nil, or_false] at hrn
      rcases hrn with h | h | h
      · rw [h]; exact .single e31
      · rw [h]; exact .head e23 (.single e31)
      · rw [h]
    constructor
    · intro hs
      rw [hs] at hm
      cases hst : stale with
      | false => rfl
      | true => exact absurd ⟨n1, hreach, [], by rw [hask, if_pos rfl, hst]⟩ hm.2.2.2.1
    · intro hs
      have hns : ¬ Stale C.dag C.ask r.node := by
        rintro ⟨m, _, log, hlog⟩
        rw [hask m, hs] at hlog
        simp at hlog
      cases hst : r.status with
      | skip => rfl
      | depf =>
        obtain ⟨rB, _, hreq, _⟩ := C05_only_if C hwf _ r hr' hst
        rw [hdag] at hreq
        exact absurd (ring_edge.1 hreq).1 (by decide)
      | ok =>
        have hb := (began_of_status hT hr).1.2 (.inl hst)
        exact absurd ((C08_executed_iff_stale C hwf _ r hr' (by rw [hst]; decide)).1 hb) hns
      | fail =>
        have hb := (began_of_status hT hr).1.2 (.inr hst)
        exact absurd ((C08_executed_iff_stale C hwf _ r hr' (by rw [hst]; decide)).1 hb) hns
  cases hst : stale with
  | true =>
    rw [if_pos rfl, List.countP_eq_zero]
    intro r hr
    have := key r hr
    rw [hst] at this
    simpa using this
  | false =>
    rw [if_neg (by decide), ← hlen, List.countP_eq_length]
    intro r hr
    simpa using (key r hr).2 hst

theorem ring_cycle {n1 n2 n3 : Node} {task : Node → TaskId} (h12 : n1 ≠ n2) (h13 : n1 ≠ n3)
    (h23 : n2 ≠ n3) {c : List Node} (hc : IsCycle (ringDag .after n1 n2 n3 task) c) :
    c ~r [n1, n2, n3] := by
  obtain ⟨h0, hnd, hstep⟩ := hc
  have hs : ∀ a b, AfterEdge (ringDag .after n1 n2 n3 task) a b →
      (a = n3 ∧ b = n1) ∨ (a = n2 ∧ b = n3) ∨ (a = n1 ∧ b = n2) := fun a b h => (ring_edge.1 h).2
  match c, h0, hnd, hstep with
  | [a], _, _, hstep =>
    have e1 := hs _ _ (hstep 0 (by simp))
    have m1 : (0 + 1) % [a].length = 0 := by simp
    simp only [m1, List.getElem_cons_zero] at e1
    rcases e1 with ⟨h1, h2⟩ | ⟨h1, h2⟩ | ⟨h1, h2⟩
    · exact absurd (h2.symm.trans h1) h13
    · exact absurd (h1.symm.trans h2) h23
    · exact absurd (h1.symm.trans h2) h12
  | [a, b], _, _, hstep =>
    have e1 := hs a b (hstep 0 (by simp))
    have e2 := hs _ _ (hstep 1 (by simp))
    have m2 : (1 + 1) % [a, b].length = 0 := by simp
    simp only [m2, List.getElem_cons_zero, List.getElem_cons_succ] at e2
    rcases e1 with ⟨h1, h2⟩ | ⟨h1, h2⟩ | ⟨h1, h2⟩ <;> rcases e2 with ⟨h3, h4⟩ | ⟨h3, h4⟩ | ⟨h3, h4⟩ <;>
      subst_vars <;> simp_all
  | [a, b, d], _, _, hstep =>
    have e1 := hs a b (hstep 0 (by simp))
    have e2 := hs b d (hstep 1 (by simp))
    rcases e1 with ⟨rfl, rfl⟩ | ⟨rfl, rfl⟩ | ⟨rfl, rfl⟩
    · rcases e2 with ⟨h3, h4⟩ | ⟨h3, h4⟩ | ⟨h3, h4⟩
      · exact absurd h3 h13
      · exact absurd h3 h12
      · subst h4; exact ⟨1, rfl⟩
    · rcases e2 with ⟨h3, h4⟩ | ⟨h3, h4⟩ | ⟨h3, h4⟩
      · subst h4; exact ⟨2, rfl⟩
      · exact absurd h3.symm h23
      · exact absurd h3.symm h13
    · rcases e2 with ⟨h3, h4⟩ | ⟨h3, h4⟩ | ⟨h3, h4⟩
      · exact absurd h3 h23
      · subst h4; exact ⟨0, rfl⟩
      · exact absurd h3.symm h12
  | a :: b :: d :: e :: l, _, hnd, hstep =>
    exfalso
    have m1 : (0 + 1) % (a :: b :: d :: e :: l).length = 1 := Nat.mod_eq_of_lt (by simp)
    have m2 : (1 + 1) % (a :: b :: d :: e :: l).length = 2 := Nat.mod_eq_of_lt (by simp)
    have m3 : (2 + 1) % (a :: b :: d :: e :: l).length = 3 := Nat.mod_eq_of_lt (by simp)
    have e1 := hs _ _ (hstep 0 (by simp))
    have e2 := hs _ _ (hstep 1 (by simp))
    have e3 := hs _ _ (hstep 2 (by simp))
    simp only [m1, m2, m3, List.getElem_cons_zero, List.getElem_cons_succ] at e1 e2 e3
    have hae : a ≠ e := fun h => (List.nodup_cons.1 hnd).1 (by rw [h]; simp)
    rcases e1 with ⟨h1, h2⟩ | ⟨h1, h2⟩ | ⟨h1, h2⟩ <;>
      rcases e2 with ⟨h3, h4⟩ | ⟨h3, h4⟩ | ⟨h3, h4⟩ <;>
      rcases e3 with ⟨h5, h6⟩ | ⟨h5, h6⟩ | ⟨h5, h6⟩ <;>
      first
        | exact hae (h1.trans h6.symm)
        | exact h13 (h2.symm.trans h3)
        | exact h12 (h2.symm.trans h3)
        | exact h23 (h3.symm.trans h2)
        | exact h13 (h3.symm.trans h2)
        | exact h23 (h2.symm.trans h3)
        | exact h12 (h3.symm.trans h2)
        | exact h13 (h4.symm.trans h5)
        | exact h12 (h4.symm.trans h5)
        | exact h23 (h5.symm.trans h4)
        | exact h13 (h5.symm.trans h4)
        | exact h23 (h4.symm.trans h5)
        | exact h12 (h5.symm.trans h4)

/-- **C73**, test `cyclic_after` (test/basic_utest.cpp:242-273): a cycle of AFTER edges is reported as
it is, starting anywhere, and nothing is run. -/
theorem C73_cyclic_after (n1 n2 n3 : Node) (h12 : n1 ≠ n2) (h13 : n1 ≠ n3) (h23 : n2 ≠ n3) (C : Cfg)
    (hdag : ∃ task, C.dag = ringDag .after n1 n2 n3 task) (ms : List Move)
    (hne : (exec C ms).trace ≠ []) (hvis : ∀ f, .fault f ∉ ms) :
    (∃ c, (exec C ms).trace.filterMap (fun e => match e with
      | .detectedCycle c => some c
      | _ => none) = [c] ∧ c ~r [n1, n2, n3]) ∧
    (∀ n, ¬ JobBegan (exec C ms).trace n) ∧
    (exec C [.ctl, .ctl]).phase = .threw .cycle := by
  obtain ⟨task, hdag⟩ := hdag
  have hwf : C.dag.WF := by rw [hdag]; exact ring_wf h12 h13 h23
  have e31 : AfterEdge (ringDag .after n1 n2 n3 task) n3 n1 := ring_edge.2 ⟨rfl, .inl ⟨rfl, rfl⟩⟩
  have e23 : AfterEdge (ringDag .after n1 n2 n3 task) n2 n3 :=
    ring_edge.2 ⟨rfl, .inr (.inl ⟨rfl, rfl⟩)⟩
  have e12 : AfterEdge (ringDag .after n1 n2 n3 task) n1 n2 :=
    ring_edge.2 ⟨rfl, .inr (.inr ⟨rfl, rfl⟩)⟩
  have hcyc : Cyclic C.dag := by
    rw [hdag]
    exact ⟨n1, .head e12 (.head e23 (.single e31))⟩
  refine ⟨?_, ((C09_exact C hwf ms).2 hcyc).2.2.1, C09_detected C hwf hcyc⟩
  rcases (C10_reported_cycle C hwf ms).2 hcyc hne with ⟨c, hc, hcy⟩ | ⟨_, k, hk⟩
  · refine ⟨c, hc, ?_⟩
    rw [hdag] at hcy
    exact ring_cycle h12 h13 h23 hcy
  · exact absurd hk (hvis k)

/-- **C73**, tests `process_no_update` and `update` (test/process_utest.cpp:31-93), for any two files,
any times and any program that succeeds: `derive(cmd, f1, out(f2))` is skipped iff `f2` is newer than
`f1`, and run otherwise. -/
theorem C73_process {E : BEnv} {name : Str} {t : TaskId} {univ visit order s}
    (h : Run E (.mk [(name, t)] []) univ visit order [] s) (cmd f1 f2 : Str) (tf : TimeFmt)
    (fs fsRun : FS) (os : POS) (hc : os.Completed) (hx : os.exit = 0)
    (hst : E.store t = { job := some (Process.toJob tf fs fsRun os
                                (Process.derive [.other cmd, .path f1, .out f2]))
                         dependsOn := [], runAfter := [], invalidatedBy := [], resources := []
                         hidden := false })
    (a b : PFile) (h1 : fs f1 = some a) (h2 : fs f2 = some b) :
    AlwaysReturns E s (RecordOf (· = t) fun _ =>
      if a.time < b.time then ⟨.skip, 0, []⟩ else ⟨.ok, 0, written os.chunks⟩) := by
  have hsel : Selected E.store (.mk [(name, t)] []) [] = (· = t) := by
    funext u
    refine propext ((selected_flat fun e he d hd => ?_).trans (by simp))
    rw [List.mem_singleton.1 he, hst] at hd
    cases hd
  have hrun : ∃ rr, (Process.toJob tf fs fsRun os (Process.derive [.other cmd, .path f1, .out f2])).run
      = .ret rr ∧ rr.retcode = some 0 ∧ rr.output = written os.chunks := by
    have hw : writeRetcode os (os.effect fsRun) none = .ok (os.effect fsRun) := rfl
    have hd := prun_done os fsRun (Process.derive [.other cmd, .path f1, .out f2]) hc
    rw [show (Process.derive [.other cmd, .path f1, .out f2]).retcodeFile = none from rfl, hw] at hd
    have hr : ((Process.derive [.other cmd, .path f1, .out f2]).run os fsRun).1 = .ret _ :=
      congrArg Prod.fst hd
    obtain ⟨c, c1, c2, _⟩ := C37_retcode os fsRun _ _ hr
    exact ⟨_, hr, by rw [c1, c2.2 ⟨hc, hx⟩], (C37_output os fsRun _ _ hr).2.2.1 hc hx⟩
  have hstale := C34_stale tf fs (Process.derive [.other cmd, .path f1, .out f2])
    (by intro f hf; cases hf) (by simp [Process.derive, Process.take, Process.empty])
    (by simp [Process.derive, Process.take, Process.empty])
    (by intro i hi; rw [List.mem_singleton.1 hi, h1]; rfl)
    (by intro i hi; rw [List.mem_singleton.1 hi, h2]; rfl)
  have hout : OutOfDate E.store (Selected E.store (.mk [(name, t)] []) []) t ↔ ¬ a.time < b.time := by
    have hs : SaysStale E.store t ↔ ¬ a.time < b.time := by
      constructor
      · rintro ⟨j, log, e1, e2⟩
        rw [hst] at e1
        cases e1
        simp only [Process.toJob, Job.isInvalidated, InvalOut.answer.injEq] at e2
        obtain ⟨o, ho, i, hi, fo, fi, e3, e4, e5⟩ := hstale.1 (by rw [e2])
        rw [List.mem_singleton.1 ho, h2] at e3
        rw [List.mem_singleton.1 hi, h1] at e4
        cases e3
        cases e4
        omega
      · intro hn
        have := hstale.2 ⟨f2, List.mem_singleton_self _, f1, List.mem_singleton_self _, b, a, h2, h1,
          by omega⟩
        refine ⟨_, (Process.isInvalidated tf fs (Process.derive [.other cmd, .path f1, .out f2])).log,
          by rw [hst], ?_⟩
        simp only [Process.toJob, Job.isInvalidated]
        rw [← this]
    rw [← hs]
    constructor
    · rintro ⟨u, hu, hus⟩
      rcases Relation.ReflTransGen.cases_head hu with e | ⟨c, ⟨_, e⟩, _⟩
      · rw [e]; exact hus
      · rw [hst] at e
        rcases e with e | e <;> cases e
    · exact fun hss => ⟨t, .refl, hss⟩
  obtain ⟨rr, hr1, hr2, hr3⟩ := hrun
  have hnd : ∀ v, ¬ DepFailed E.store v t := by
    rintro v ⟨d, hd, _⟩
    rw [hst] at hd
    cases hd
  rw [← hsel]
  refine h.returns ⟨fun u hu => ?_, fun u hu j rr' e1 e2 => ?_⟩ (no_cycle (fun _ => 0) fun u d hud => ?_)
    (fun u hu => ?_) _ ⟨fun u hu hdf => ?_, fun u hu hdf ho => ?_, fun u hu hdf ho => ?_⟩
  · rw [hsel] at hu
    subst hu
    rw [hst]; simp
  · rw [hsel] at hu
    subst hu
    rw [hst] at e1
    cases e1
    rw [hr1] at e2
    cases e2
    rw [hr2]; simp
  · obtain ⟨hu, _, hd⟩ := hud
    rw [hsel] at hu
    subst hu
    rw [hst] at hd
    rcases hd with hd | hd <;> cases hd
  · rw [hsel] at hu
    subst hu
    exact ⟨_, _, by rw [hst], rfl⟩
  · rw [hsel] at hu
    subst hu
    exact absurd hdf (hnd _)
  · rw [hsel] at hu
    subst hu
    rw [hout, Classical.not_not] at ho
    rw [if_pos ho]
  · rw [hsel] at hu
    subst hu
    rw [hout] at ho
    refine ⟨_, by rw [hst], ?_, ?_⟩
    · unfold Yields
      rw [hr1, if_neg ho]
      exact ⟨hr2, hr3.symm⟩
    · rw [if_neg ho]; rfl

/-- **C73**, test `corner_cases` (test/process_utest.cpp:95-112).  The comment of the test says that
without inputs a process is out of date if an output is missing; what it expects (`EXPECT_FALSE` where
the file is missing) is the opposite, and this is what the code does (C35). -/
theorem C73_corner_cases (tf : TimeFmt) (fs : FS) (f : Str) (hf : fs f = none) :
    (({ Process.empty with input := [f] } : Process).isInvalidated tf fs).invalidated = true ∧
    (({ Process.empty with output := [f] } : Process).isInvalidated tf fs).invalidated = false := by
  constructor
  · rfl
  · rw [show (({ Process.empty with output := [f] } : Process).isInvalidated tf fs).invalidated =
      [f].all (fun q => (fs q).isSome) from rfl]
    simp [hf]

/-- test `fmt_nested` (test/format_utest.cpp:15-34) -/
example : formatNested ['x'] [] = [] ∧
    formatNested ['x'] [⟨.standard, ['y']⟩] = "xy\n".toList ∧
    formatNested ['x'] [⟨.standard, "y\n".toList⟩] = "xy\n".toList ∧
    formatNested ['x'] [⟨.standard, "y\nz\n".toList⟩] = "xy\nxz\n".toList := by decide +kernel

/-- tests `empty`, `sizeone` and `multiple` (test/list_utest.cpp:30-62) -/
example : ((LS.empty.ops 9 [.newList 0]).bind (·.empty' 0)) = some true ∧
    ((LS.empty.ops 9 [.newList 0]).bind (·.begin' 0)) = some LS.end' ∧
    ((LS.empty.ops 9 [.newList 0, .emplaceFront 0 42]).bind (·.empty' 0)) = some false ∧
    ((LS.empty.ops 9 [.newList 0, .emplaceFront 0 42]).bind (·.front 0)) = some 42 ∧
    ((LS.empty.ops 9 [.newList 0, .emplaceFront 0 3, .emplaceFront 0 2, .emplaceFront 0 1]).bind
      (·.toList 9 0)) = some [1, 2, 3] := by decide +kernel

namespace Ex

/-- the tasks of test `depf` -/
def uset : TaskSet := .mk [(['a'], 1), (['b'], 2), (['c'], 3)] []
def ustore : Store := fun t =>
  if t = 1 then Joque.plain 1 [] [] else if t = 2 then Joque.plain 1 [1] [] else Joque.plain 1 [2] []
def uenv : BEnv := { store := ustore, alloc := fun k => 100 + 2 * k, rehash := fun _ => true }
def ubuilt : BOut := insertSet uenv 4 Dag.empty uset [] [3, 1, 2] List.reverse
def ust : BSt := match ubuilt with | .ok s => s | _ => { dag := Dag.empty, tmp := [], index := [] }

theorem uset_tasks {t : TaskId} (h : uset.Has t) : t = 1 ∨ t = 2 ∨ t = 3 := by
  have := mem_forEachTask_snd.2 h
  have he : (forEachTask uset).map Prod.snd = [1, 2, 3] := by decide +kernel
  rw [he] at this
  simpa using this

theorem urun : Run uenv uset [1, 2, 3] [3, 1, 2] List.reverse [] ust where
  env :=
    { set := by
        refine ⟨.mk (by decide +kernel) (by simp) (by simp), ?_⟩
        intro p q t hp hq
        have h1 := (paths_at _ _ _).2 hp
        have h2 := (paths_at _ _ _).2 hq
        have : paths uset = [([['a']], 1), ([['b']], 2), ([['c']], 3)] := by decide +kernel
        rw [this] at h1 h2
        simp only [List.mem_cons, List.not_mem_nil, or_false, Prod.mk.injEq] at h1 h2
        rcases h1 with ⟨rfl, rfl⟩ | ⟨rfl, rfl⟩ | ⟨rfl, rfl⟩ <;>
          rcases h2 with ⟨rfl, h⟩ | ⟨rfl, h⟩ | ⟨rfl, h⟩ <;> first | rfl | cases h
      dag := ⟨by simp [Dag.empty], by simp [Dag.empty]⟩
      allocInj := fun i j h => by
        have h' : (100 + 2 * i : Nat) = 100 + 2 * j := h
        omega
      allocFresh := by simp [Dag.empty]
      closed := by
        intro t ht d hd
        simp only [List.mem_cons, List.not_mem_nil, or_false] at ht
        rcases ht with rfl | rfl | rfl
        · cases hd
        · have : d ∈ [1] := hd
          simp at this; simp [this]
        · have : d ∈ [2] := hd
          simp at this; simp [this]
      univ := fun t ht => by rcases uset_tasks ht with rfl | rfl | rfl <;> simp
      visit := fun t ht => by rcases uset_tasks ht with rfl | rfl | rfl <;> simp
      order := fun l => List.reverse_perm l }
  built := ⟨4, by simp, by
    have h : (match ubuilt with | .ok _ => true | _ => false) = true := by decide +kernel
    show ubuilt = .ok ust
    unfold ust
    revert h
    cases ubuilt with
    | ok s => intro _; rfl
    | ub => intro h; cases h
    | outOfFuel => intro h; cases h⟩

end Ex

/-- the hypotheses of `C73_depf` are met by test `depf`, with thread count 4 and also sequentially -/
example : AlwaysReturns Ex.uenv Ex.ust (RecordOf (· ∈ [1, 2, 3])
    fun t => if t = 1 then ⟨.fail, 1, []⟩ else ⟨.depf, 0, []⟩) := by
  refine C73_depf Ex.urun 1 1 (by decide) id (by decide) rfl ?_
  intro t ht hne
  have ht' : t ∈ [1, 2, 3] := ht
  simp only [List.mem_cons, List.not_mem_nil, or_false] at ht'
  rcases ht' with rfl | rfl | rfl
  · exact absurd rfl hne
  · exact ⟨1, 1, rfl, by decide, by decide⟩
  · exact ⟨2, 1, rfl, by decide, by decide⟩

example : (exec (execCfg Ex.ustore Ex.ust.dag 0) (List.replicate 20 .ctl)).erec.runs.map
    (fun r => (r.t, r.status)) = [(1, .fail), (2, .depf), (3, .depf)] := by decide +kernel

end Joque
