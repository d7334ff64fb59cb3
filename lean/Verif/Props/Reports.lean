import Verif.Props.Tick
import Verif.Props.Job
import Mathlib.Logic.Relation

/-! # What the visitor is told about invalidation; callables -/

namespace Joque

/-! ## C66 -/

/-- The calls of `after_dep_inval` and `after_job_is_inval` in `tr` explain why `n` is out of date:
`n` was invalidated by …, which was invalidated by …, whose job said it is. -/
def Explained (tr : List Event) (n : Node) : Prop :=
  ∃ k log, Relation.ReflTransGen (fun a b => Event.depInval a b ∈ tr) n k ∧
    Event.jobInval k .invalid log ∈ tr

theorem Explained.mono {tr tr' : List Event} {n : Node} (h : Explained tr n)
    (hs : ∀ e ∈ tr, e ∈ tr') : Explained tr' n := by
  obtain ⟨k, log, h1, h2⟩ := h
  exact ⟨k, log, Relation.ReflTransGen.mono (fun _ _ h => hs _ h) _ _ h1, hs _ h2⟩

theorem propLoop_reports (g : Dag) : ∀ (fuel : Nat) (tp seen : List Node) (s s' : PSt),
    tp.Pairwise (· < ·) → propLoop g fuel tp seen s = .ok s' →
    (∃ ps : List (Node × List Edge), (ps.map Prod.fst).Nodup ∧
      (∀ q ∈ ps, (q.1 ∈ tp ∨ q.1 ∉ seen) ∧
        q.2.Sublist (filterEdges .invalidatedBy (g.inEdges q.1))) ∧
      s'.events = s.events ++
        ps.flatMap (fun q => q.2.map (fun e => Event.depInval e.src e.tgt))) ∧
    ((∀ x ∈ tp, Explained s.events x) → (∀ n m, .depInval n m ∈ s.events → Explained s.events n) →
      ∀ n m, .depInval n m ∈ s'.events → Explained s'.events n) := by
  intro fuel
  induction fuel with
  | zero => intro tp seen s s' _ h; cases h
  | succ fuel ih =>
    intro tp seen s s' hs h
    cases tp with
    | nil =>
      simp only [propLoop] at h
      injection h with h
      subst h
      exact ⟨⟨[], by simp, by simp, by simp⟩, fun _ h => h⟩
    | cons p tp =>
      simp only [propLoop] at h
      split at h
      · cases h
      rw [List.pairwise_cons] at hs
      obtain ⟨e1, e2, _, _, e5⟩ := propEdges_spec (p :: seen)
        (filterEdges .invalidatedBy (g.inEdges p)) tp s hs.2
      obtain ⟨⟨ps, i1, i2, i3⟩, i4⟩ := ih _ _ _ _ e1 h
      have hp : p ∉ ps.map Prod.fst := by
        intro hm
        obtain ⟨q, hq, hqp⟩ := List.mem_map.1 hm
        rcases (i2 q hq).1 with h | h
        · rcases (e2 _).1 h with h | h
          · rw [hqp] at h; exact absurd (hs.1 p h) (Nat.lt_irrefl _)
          · rw [hqp] at h; exact h.1 (by simp)
        · rw [hqp] at h; exact h (by simp)
      refine ⟨⟨(p, (filterEdges .invalidatedBy (g.inEdges p)).filter
          (fun e => e.src ∉ p :: seen)) :: ps, ?_, ?_, ?_⟩, ?_⟩
      · rw [List.map_cons, List.nodup_cons]; exact ⟨hp, i1⟩
      · intro q hq
        rcases List.mem_cons.1 hq with rfl | hq
        · exact ⟨.inl (by simp), List.filter_sublist⟩
        · refine ⟨?_, (i2 q hq).2⟩
          rcases (i2 q hq).1 with h | h
          · rcases (e2 _).1 h with h | h
            · exact .inl (by simp [h])
            · exact .inr (fun hm => h.1 (List.mem_cons_of_mem _ hm))
          · exact .inr (fun hm => h (List.mem_cons_of_mem _ hm))
      · rw [i3, e5]; simp
      · intro h1 h2
        have hsub : ∀ e ∈ s.events, e ∈
            (propEdges (p :: seen) (filterEdges .invalidatedBy (g.inEdges p)) tp s).2.events := by
          intro e he; rw [e5]; exact List.mem_append_left _ he
        have hnew : ∀ x, (x ∉ p :: seen ∧
            ∃ e ∈ filterEdges .invalidatedBy (g.inEdges p), e.src = x) → Explained
            (propEdges (p :: seen) (filterEdges .invalidatedBy (g.inEdges p)) tp s).2.events x := by
          rintro x ⟨hx, e, he, rfl⟩
          obtain ⟨k, log, h3, h4⟩ := (h1 p (by simp)).mono hsub
          have htgt : e.tgt = p := by
            simp [filterEdges, Dag.inEdges] at he; exact he.2.2
          refine ⟨k, log, .head ?_ h3, h4⟩
          rw [e5]
          refine List.mem_append_right _ (List.mem_map.2 ⟨e, ?_, by rw [htgt]⟩)
          rw [List.mem_filter]
          exact ⟨he, by simpa using hx⟩
        refine i4 ?_ ?_
        · intro x hx
          rcases (e2 x).1 hx with h | h
          · exact (h1 x (by simp [h])).mono hsub
          · exact hnew x h
        · intro n m hm
          rw [e5] at hm
          rcases List.mem_append.1 hm with hm | hm
          · exact (h2 n m hm).mono hsub
          · obtain ⟨e, he, heq⟩ := List.mem_map.1 hm
            rw [List.mem_filter] at he
            injection heq with h3 h4
            exact hnew n ⟨by have := he.2; rw [h3] at this; simpa using this, e, he.1, h3⟩

theorem count_reports {g : Dag} (n m : Node) : ∀ ps : List (Node × List Edge),
    (ps.map Prod.fst).Nodup →
    (∀ q ∈ ps, q.2.Sublist (filterEdges .invalidatedBy (g.inEdges q.1))) →
    (ps.flatMap (fun q => q.2.map (fun e => Event.depInval e.src e.tgt))).count (.depInval n m) ≤
      if m ∈ ps.map Prod.fst then g.edges.count ⟨n, m, .invalidatedBy⟩ else 0 := by
  intro ps
  induction ps with
  | nil => intro _ _; simp
  | cons q ps ih =>
    intro hnd hs
    rw [List.map_cons, List.nodup_cons] at hnd
    rw [List.flatMap_cons, List.count_append]
    have ih := ih hnd.2 (fun q hq => hs q (List.mem_cons_of_mem _ hq))
    have hsub := hs q List.mem_cons_self
    have hmem : ∀ e ∈ q.2, e.tgt = q.1 ∧ e.kind = .invalidatedBy := by
      intro e he
      have := hsub.subset he
      simp [filterEdges, Dag.inEdges] at this
      exact ⟨this.2.2, this.2.1⟩
    have hcnt : (q.2.map (fun e => Event.depInval e.src e.tgt)).count (.depInval n m) ≤
        if m = q.1 then g.edges.count ⟨n, m, .invalidatedBy⟩ else 0 := by
      split
      · next hm =>
        have h1 : (q.2.map (fun e => Event.depInval e.src e.tgt)).count (.depInval n m) =
            q.2.count ⟨n, m, .invalidatedBy⟩ := by
          rw [List.count, List.count, List.countP_map]
          apply List.countP_congr
          intro e he
          obtain ⟨h1, h2⟩ := hmem e he
          obtain ⟨a, b, k⟩ := e
          simp at h1 h2
          subst h2
          simp
        rw [h1]
        refine (hsub.count_le _).trans ?_
        unfold filterEdges Dag.inEdges
        exact (List.filter_sublist.trans List.filter_sublist).count_le _
      · next hm =>
        rw [Nat.le_zero, List.count_eq_zero]
        intro h
        obtain ⟨e, he, heq⟩ := List.mem_map.1 h
        injection heq with h1 h2
        exact hm (h2 ▸ (hmem e he).1)
    by_cases hm : m = q.1
    · have : m ∉ ps.map Prod.fst := by rw [hm]; exact hnd.1
      rw [if_neg this] at ih
      rw [if_pos hm] at hcnt
      rw [if_pos (by rw [hm]; simp)]
      omega
    · rw [if_neg hm] at hcnt
      by_cases hm2 : m ∈ ps.map Prod.fst
      · rw [if_pos hm2] at ih
        rw [if_pos (by simp only [List.map_cons]; exact List.mem_cons_of_mem _ hm2)]
        omega
      · rw [if_neg hm2] at ih
        rw [if_neg (by
          simp only [List.map_cons, List.mem_cons, not_or]
          exact ⟨hm, hm2⟩)]
        omega

/-- what the prologue reports -/
theorem prologue_reports {C : Cfg} (hwf : C.dag.WF) :
    (∀ n m, (prologue C St.init).trace.count (.depInval n m) ≤
      C.dag.edges.count ⟨n, m, .invalidatedBy⟩) ∧
    (∀ n m, .depInval n m ∈ (prologue C St.init).trace →
      HasEdge C.dag .invalidatedBy n m ∧ Stale C.dag C.ask m ∧ ¬ SelfStale C.ask n) ∧
    ((prologue C St.init).phase = .loopTop → ∀ n ∈ C.dag.nodes, Stale C.dag C.ask n →
      Explained (prologue C St.init).trace n) := by
  have htp := toProcessOf_spec C.dag
  have hno : ∀ (l : List Event), (∀ e ∈ l, ∀ n m, e ≠ .depInval n m) →
      (∀ n m, l.count (.depInval n m) ≤ C.dag.edges.count ⟨n, m, .invalidatedBy⟩) ∧
      (∀ n m, .depInval n m ∈ l →
        HasEdge C.dag .invalidatedBy n m ∧ Stale C.dag C.ask m ∧ ¬ SelfStale C.ask n) := by
    intro l hl
    refine ⟨fun n m => ?_, fun n m h => absurd rfl (hl _ h n m)⟩
    rw [List.count_eq_zero.2 (fun h => hl _ h n m rfl)]; exact Nat.zero_le _
  rcases prologue_spec hwf with ⟨_, c, _, hp, ht⟩ | ⟨hnc, hall, hp, evs, ht, h4, h5⟩ |
      ⟨_, pre, n, post, _, _, _, ht, h6⟩
  · obtain ⟨h1, h2⟩ := hno (prologue C St.init).trace (by
      intro e he n m
      rw [ht] at he
      simp only [List.mem_append, List.mem_cons, List.mem_map, List.not_mem_nil, or_false] at he
      rcases he with (rfl | ⟨a, _, rfl⟩) | rfl <;> simp)
    exact ⟨h1, h2, fun h => by rw [hp] at h; cases h⟩
  · -- the second loop
    obtain ⟨tp', s1, q1, q2, q3, q4, q5⟩ := queryLoop_ok (hasJob := C.hasJob) (ask := C.ask)
      (toProcessOf C.dag) [] { inval := St.init.flags.inval, events := [] }
      (fun n hn => hall n ((htp.2 n).1 hn)) (by simp)
    obtain ⟨ps, evs', hps, _, _, h3', _⟩ := propagate_ok hwf (tp := toProcessOf C.dag)
        (inval0 := St.init.flags.inval) htp.2 hall
    have hloop : propLoop C.dag (C.dag.nodes.length + 1) tp' tp' s1 = .ok ps := by
      have := hps
      simpa [propagateInvalidation, q1] using this
    have htrace : (prologue C St.init).trace =
        (.resumed :: C.dag.nodes.map Event.nodeEnque) ++ ps.events := by
      rcases hasCycle_spec hwf htp.2 with ⟨c, hc, hic⟩ | ⟨hc, _⟩
      · exact absurd (cyclic_of_isCycle hic) hnc
      · unfold prologue
        simp only
        rw [hc]
        simp only
        rw [hps]
        simp [St.init]
    obtain ⟨⟨l, r1, r2, r3⟩, r4⟩ := propLoop_reports C.dag _ _ _ _ _ q2 hloop
    have hs1 : s1.events = (toProcessOf C.dag).map
        (fun n => Event.jobInval n (ansOf C.ask n) (logOf C.ask n)) := by rw [q5]; simp
    have hexp0 : ∀ x ∈ tp', Explained s1.events x := by
      intro x hx
      rcases (q3 x).1 hx with h | ⟨h1, h2⟩
      · cases h
      · refine ⟨x, logOf C.ask x, .refl, ?_⟩
        rw [hs1]
        exact List.mem_map.2 ⟨x, h1, by rw [ansOf_invalid.2 h2]⟩
    have hexp := r4 hexp0 (by
      intro n m hm
      rw [hs1] at hm
      obtain ⟨_, _, h⟩ := List.mem_map.1 hm
      cases h)
    refine ⟨fun n m => ?_, fun n m h => ?_, fun _ n hn hst => ?_⟩
    · rw [htrace, r3, List.count_append, List.count_append, hs1,
        List.count_eq_zero.2 (by simp), List.count_eq_zero.2 (by simp), Nat.zero_add, Nat.zero_add]
      refine (count_reports n m l r1 (fun q hq => (r2 q hq).2)).trans ?_
      split
      · exact Nat.le_refl _
      · exact Nat.zero_le _
    · rw [ht] at h
      simp only [List.mem_append, List.mem_cons, List.mem_map, reduceCtorEq, and_false, exists_false,
        false_or] at h
      obtain ⟨n', m', h1, h2⟩ := h4 _ h
      injection h1 with h1 h3
      subst h1 h3
      exact h2
    · rw [htrace]
      have hsub : ∀ e ∈ ps.events, e ∈
          (Event.resumed :: C.dag.nodes.map Event.nodeEnque) ++ ps.events :=
        fun e he => List.mem_append_right _ he
      by_cases hself : SelfStale C.ask n
      · refine (hexp0 n ((q3 n).2 (.inr ⟨(htp.2 n).2 hn, hself⟩))).mono (fun e he => hsub e ?_)
        rw [r3]; exact List.mem_append_left _ he
      · obtain ⟨m, hm⟩ := h5 n hn hst hself
        have hm' : Event.depInval n m ∈ ps.events := by
          have : Event.depInval n m ∈ (prologue C St.init).trace := by
            rw [ht]; simp [hm]
          rw [htrace] at this
          simpa using this
        exact (hexp n m hm').mono hsub
  · obtain ⟨h1, h2⟩ := hno (prologue C St.init).trace (by
      intro e he n m
      rw [ht] at he
      simp only [List.mem_append, List.mem_cons, List.mem_map] at he
      rcases he with (rfl | ⟨a, _, rfl⟩) | ⟨a, _, rfl⟩ <;> simp)
    refine ⟨h1, h2, fun h => ?_⟩
    rcases h6 with ⟨_, hp⟩ | ⟨_, w, _, hp⟩ <;> rw [hp] at h <;> cases h

/-- **C66**, part 1.  Each call of `after_dep_inval(n, m)` is true: `n` is declared to be invalidated
by `m`, `m` is out of date, and the job of `n` did not say so itself.  No declaration is reported
twice. -/
theorem C66_true (C : Cfg) (hwf : C.dag.WF) (ms : List Move) (n m : Node) :
    (.depInval n m ∈ (exec C ms).trace →
      HasEdge C.dag .invalidatedBy n m ∧ Stale C.dag C.ask m ∧ ¬ SelfStale C.ask n) ∧
    (exec C ms).trace.count (.depInval n m) ≤ C.dag.edges.count ⟨n, m, .invalidatedBy⟩ := by
  obtain ⟨h1, h2, _⟩ := prologue_reports hwf
  rcases (tinv_exec hwf ms).pro with ⟨_, h⟩ | ⟨rest, h, hr⟩ | ⟨_, _, h⟩
  · rw [h]; simp
  · rw [h]
    have hno : Event.depInval n m ∉ rest := fun hm => by have := hr _ hm; simp [proEv] at this
    refine ⟨fun hm => ?_, ?_⟩
    · rcases List.mem_append.1 hm with hm | hm
      · exact h2 n m hm
      · exact absurd hm hno
    · rw [List.count_append, List.count_eq_zero.2 hno]
      exact h1 n m
  · exact ⟨fun hm => h2 n m (h.subset hm), (h.sublist.count_le _).trans (h1 n m)⟩

/-- **C66**, part 2.  Every job that is started was explained before: the visitor has been told a
chain of reasons from it to a task whose own job answered "out of date". -/
theorem C66_explained (C : Cfg) (hwf : C.dag.WF) (ms : List Move) (n : Node)
    (hb : JobBegan (exec C ms).trace n) : Explained (exec C ms).trace n := by
  obtain ⟨b, hb⟩ := hb
  obtain ⟨hI, hT⟩ := both_exec hwf ms
  obtain ⟨h1, h2, h3⟩ := prologue_reports hwf
  obtain ⟨pre, post, htr⟩ := List.append_of_mem hb
  have hst : Stale C.dag C.ask n := (hT.always pre _ post htr).2.2.2.2.2.1
  rcases hT.pro with ⟨_, h⟩ | ⟨rest, h, hr⟩ | ⟨_, _, h⟩
  · rw [h] at hb; cases hb
  · have hn : n ∈ C.dag.nodes := by
      by_contra hcon
      have hl := hT.lifeOther n (fun hm => hcon (hI.inNodes n hm))
      have hmem := begin_mem_life.1 ⟨b, hb⟩
      rcases hl with h | ⟨_, h⟩ <;> rw [h] at hmem <;> simp at hmem
    have hp : (prologue C St.init).phase = .loopTop := by
      have hno : ∀ p0, (prologue C St.init).phase = p0 → (p0 = .ub ∨ ∃ e, p0 = .unwinding e) →
          False := by
        intro p0 hp hp0
        have hpre : (exec C ms).trace <+: (prologue C St.init).trace := by
          rcases (stuck_exec hp hp0 ms).2 with h | ⟨h, _⟩ | ⟨h, _⟩ | ⟨_, h, _⟩
          · rw [h]; exact List.nil_prefix
          · rw [h]; exact List.nil_prefix
          · rw [h]; exact List.prefix_refl _
          · exact h
        rcases prologue_events hwf _ (hpre.subset hb) with h | h
        · cases h
        · simp [proEv] at h
      rcases prologue_spec hwf with ⟨_, c, _, hp, _⟩ | ⟨_, _, hp, _⟩ |
          ⟨_, _, _, _, _, _, _, _, ⟨_, hp⟩ | ⟨_, w, _, hp⟩⟩
      · exact (hno _ hp (.inr ⟨_, rfl⟩)).elim
      · exact hp
      · exact (hno _ hp (.inl rfl)).elim
      · exact (hno _ hp (.inr ⟨_, rfl⟩)).elim
    rw [h]
    exact (h3 hp n hn hst).mono (fun e he => List.mem_append_left _ he)
  · rcases prologue_events hwf _ (h.subset hb) with h | h
    · cases h
    · simp [proEv] at h

/-- task 1 says it is out of date, 2 is invalidated by 1 (declared twice, once by `depends_on` and
once directly), 3 by 2; task 0 is up to date -/
def Ex.repCfg : Cfg :=
  { dag := { nodes := [3, 2, 1, 0]
             edges := [⟨3, 2, .invalidatedBy⟩, ⟨2, 1, .invalidatedBy⟩, ⟨2, 1, .requires⟩,
               ⟨2, 1, .after⟩, ⟨2, 1, .invalidatedBy⟩, ⟨2, 0, .invalidatedBy⟩]
             name := fun n => List.replicate n 'x'
             task := fun n => n }
    resources := fun _ => []
    hasJob := fun _ => true
    ask := fun n => .answer ⟨n = 1, []⟩
    outcome := fun _ => .ret ⟨some 0, [], []⟩
    threadCount := 0 }

/-- the double declaration is reported twice, the up to date task explains nothing -/
example : (exec Ex.repCfg [.ctl]).trace.filter
      (fun e => match e with | .jobInval _ .invalid _ | .depInval _ _ => true | _ => false) =
    [.jobInval 1 .invalid [], .depInval 2 1, .depInval 2 1, .depInval 3 2] := by decide +kernel

/-! ## C67 -/

/-- **C67**.  A task whose job is a plain callable is never skipped: its record says it was run (its
job was started and ended) or that a dependency failed.  So is everything that is, transitively,
invalidated by it. -/
theorem C67_callable_runs (g : Dag) (res : Node → List Res) (job : Node → Option Job)
    (tc : Nat) (hwf : g.WF) (ms : List Move) (r : RunRecord)
    (hr : r ∈ recsOf (exec (Cfg.ofJobs g res job tc) ms).trace) (n : Node)
    (f : JobOut) (hj : job n = some (.callable f))
    (hd : Relation.ReflTransGen (HasEdge g .invalidatedBy) r.node n) :
    r.status = .depf ∨ (r.status = .ok ∨ r.status = .fail) ∧
      JobBegan (exec (Cfg.ofJobs g res job tc) ms).trace r.node ∧
      JobEnded (exec (Cfg.ofJobs g res job tc) ms).trace r.node := by
  have hst : Stale (Cfg.ofJobs g res job tc).dag (Cfg.ofJobs g res job tc).ask r.node :=
    ⟨n, hd, by simp [SelfStale, Cfg.ofJobs, hj, Job.isInvalidated]⟩
  have hm := C06_status_meaning _ hwf ms r hr
  obtain ⟨_, hT⟩ := both_exec (C := Cfg.ofJobs g res job tc) hwf ms
  have hr' := hr
  rw [hT.recs] at hr'
  obtain ⟨hb, he⟩ := began_of_status hT hr'
  cases hs : r.status with
  | depf => exact .inl rfl
  | skip => rw [hs] at hm; exact absurd hst hm.2.2.2.1
  | ok => exact .inr ⟨.inl rfl, hb.2 (.inl hs), he (hb.2 (.inl hs))⟩
  | fail => exact .inr ⟨.inr rfl, hb.2 (.inr hs), he (hb.2 (.inr hs))⟩

/-- **C67**, what the visitor is told about it: exactly that it is always invalidated. -/
theorem C67_reason (g : Dag) (res : Node → List Res) (job : Node → Option Job)
    (tc : Nat) (hwf : g.WF) (ms : List Move) (n : Node) (f : JobOut) (hj : job n = some (.callable f)) :
    (∀ r ∈ recsOf (exec (Cfg.ofJobs g res job tc) ms).trace, r.node = n →
      .jobInval n .invalid "always invalidated".toList ∈ (exec (Cfg.ofJobs g res job tc) ms).trace) ∧
    ∀ i log, .jobInval n i log ∈ (exec (Cfg.ofJobs g res job tc) ms).trace →
      i = .invalid ∧ log = "always invalidated".toList := by
  have hask : (Cfg.ofJobs g res job tc).ask n = .answer ⟨true, "always invalidated".toList⟩ := by
    simp [Cfg.ofJobs, hj, Job.isInvalidated]
  generalize hC : Cfg.ofJobs g res job tc = C at *
  have hwf' : C.dag.WF := by rw [← hC]; exact hwf
  rcases C15_prologue C hwf' ms with h | ⟨asked, mid, rest, htr, -, hans, hmid, hrest, hall⟩
  · rw [h]; exact ⟨fun r hr => (by cases hr), fun i log h => (by cases h)⟩
  have hpre : ∀ e ∈ .resumed :: C.dag.nodes.map Event.nodeEnque ++
      asked.map (fun p => Event.jobInval p.1 (if p.2.invalidated then .invalid else .valid) p.2.log) ++ mid,
      (∀ er r m, e ≠ .afterRun er r m) ∧ ∀ i log, e = .jobInval n i log →
        i = .invalid ∧ log = "always invalidated".toList := by
    intro e he
    simp only [List.cons_append, List.mem_cons, List.mem_append, List.mem_map] at he
    rcases he with rfl | (⟨m, -, rfl⟩ | ⟨p, hp, rfl⟩) | he
    · exact ⟨fun _ _ _ h => (by cases h), fun _ _ h => (by cases h)⟩
    · exact ⟨fun _ _ _ h => (by cases h), fun _ _ h => (by cases h)⟩
    · refine ⟨fun _ _ _ h => (by cases h), fun i log h => ?_⟩
      have ha := (hans p hp).2
      cases h
      rw [hask] at ha
      have hp2 : p.2 = ⟨true, "always invalidated".toList⟩ := (InvalOut.answer.inj ha).symm
      rw [hp2]
      exact ⟨rfl, rfl⟩
    · rcases hmid e he with ⟨c, rfl⟩ | ⟨a, b, rfl⟩
      · exact ⟨fun _ _ _ h => (by cases h), fun _ _ h => (by cases h)⟩
      · exact ⟨fun _ _ _ h => (by cases h), fun _ _ h => (by cases h)⟩
  constructor
  · intro r hr hrn
    obtain ⟨e, he, hre⟩ := List.mem_filterMap.1 hr
    have hex : ∃ er m, e = .afterRun er r m := by
      cases e <;> simp only [reduceCtorEq, Option.some.injEq] at hre
      exact ⟨_, _, by rw [← hre]⟩
    obtain ⟨er, m, rfl⟩ := hex
    rcases htr with htr | ⟨_, -, htr⟩
    · have hne : rest ≠ [] := by
        rintro rfl
        rw [htr, List.append_nil] at he
        exact (hpre _ he).1 er r m rfl
      have hn : n ∈ C.dag.nodes := by
        rw [← hrn]; exact (C02_no_double_record C hwf' ms).2 r hr
      obtain ⟨p, hp, hpn⟩ := List.mem_map.1 ((hall hne).1.mem_iff.2 hn)
      have ha := (hans p hp).2
      rw [hpn, hask] at ha
      have hp2 : p.2 = ⟨true, "always invalidated".toList⟩ := (InvalOut.answer.inj ha).symm
      rw [htr]
      refine List.mem_append_left _ (List.mem_append_left _ (List.mem_append_right _ ?_))
      exact List.mem_map.2 ⟨p, hp, by rw [hpn, hp2]; rfl⟩
    · exact absurd rfl ((hpre _ (htr.subset he)).1 er r m)
  · intro i log he
    rcases htr with htr | ⟨_, -, htr⟩
    · rw [htr] at he
      rcases List.mem_append.1 he with he | he
      · exact (hpre _ he).2 i log rfl
      · exact absurd rfl ((hrest _ he).2.2.1 n i log)
    · exact (hpre _ (htr.subset he)).2 i log rfl

/-- every callable is run -/
example : (exec (Ex.throwCfg Ex.okJob) (List.replicate 21 .ctl)).phase = .finished ∧
    (exec (Ex.throwCfg Ex.okJob) (List.replicate 21 .ctl)).erec.runs.map (fun r => r.status) =
      [.ok, .ok, .ok] := by decide +kernel

end Joque
