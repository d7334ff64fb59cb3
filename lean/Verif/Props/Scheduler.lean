import Verif.Props.Machine
import Verif.Props.Fine
import Verif.Props.Outcome

/-! # C113: the engine is an implementation of a small scheduler -/

namespace Joque

/-- The part of a history the machine is about. -/
def Event.act : Event → Option (Act Node)
  | .jobBegin n _ => some (.begin n)
  | .jobEnd n => some (.end n)
  | .afterRun _ r _ => some (.record r.node r.status r.retcode r.output)
  | _ => none

/-- What an execution is to do, in terms of the nodes of the graph. -/
def Cfg.workload (C : Cfg) : Workload Node where
  task n := n ∈ C.dag.nodes
  after := AfterEdge C.dag
  requires := HasEdge C.dag .requires
  stale := Stale C.dag C.ask
  resources := C.resources
  result n rc out := C.hasJob n = true ∧ (asyncLambda (C.outcome n)).retcode = some rc ∧
    out = (asyncLambda (C.outcome n)).output
  limit := max 1 C.threadCount

theorem Cfg.workload_ok {C : Cfg} (hra : ∀ a b, HasEdge C.dag .requires a b → AfterEdge C.dag a b) :
    C.workload.OK where
  req := hra
  det := by
    rintro n rc rc' out out' ⟨-, h1, h2⟩ ⟨-, h3, h4⟩
    rw [h1] at h3
    exact ⟨Option.some.inj h3, by rw [h2, h4]⟩

namespace Scheduler

/-- the actions of a history -/
def acts (tr : List Event) : List (Act Node) := tr.filterMap Event.act

theorem life_snoc (n : Node) (pre : List Event) (e : Event) (post : List Event) :
    life n (pre ++ e :: post) = life n pre ++ ((tagOf n e).toList ++ life n post) := by
  unfold life
  rw [List.filterMap_append, List.filterMap_cons]
  cases tagOf n e <;> simp

/-- how the machine's state is read off a history -/
structure Rel (C : Cfg) (pre : List Event) (σ : Sched Node) : Prop where
  run : ∀ n, n ∈ σ.running ↔ Running pre n
  runNd : σ.running.Nodup
  ended : ∀ n, n ∈ σ.ended ↔ JobEnded pre n ∧ ¬ Recorded pre n
  endNd : σ.ended.Nodup
  done : σ.done = (recsOf pre).map (fun r => (r.node, r.status))

theorem Rel.doneIff {C : Cfg} {pre : List Event} {σ : Sched Node} (h : Rel C pre σ) (n : Node) :
    σ.Done n ↔ Recorded pre n := by
  unfold Sched.Done Recorded
  rw [h.done]
  constructor
  · rintro ⟨st, hm⟩
    obtain ⟨r, hr, he⟩ := List.mem_map.1 hm
    exact ⟨r, hr, (Prod.mk.inj he).1⟩
  · rintro ⟨r, hr, rfl⟩
    exact ⟨r.status, List.mem_map.2 ⟨r, hr, rfl⟩⟩

theorem Rel.spoiltIff {C : Cfg} {pre : List Event} {σ : Sched Node} (h : Rel C pre σ) (n : Node) :
    σ.Spoilt C.workload n ↔ ∃ r ∈ recsOf pre, HasEdge C.dag .requires n r.node ∧ Bad r := by
  unfold Sched.Spoilt
  rw [h.done]
  constructor
  · rintro ⟨m, he, hm | hm⟩ <;> obtain ⟨r, hr, hx⟩ := List.mem_map.1 hm <;>
      obtain ⟨rfl, hs⟩ := Prod.mk.inj hx
    · exact ⟨r, hr, he, Or.inl hs⟩
    · exact ⟨r, hr, he, Or.inr hs⟩
  · rintro ⟨r, hr, he, hb⟩
    refine ⟨r.node, he, ?_⟩
    rcases hb with hb | hb
    · exact .inl (List.mem_map.2 ⟨r, hr, by rw [hb]⟩)
    · exact .inr (List.mem_map.2 ⟨r, hr, by rw [hb]⟩)

/-- What the proof needs to know of a history `tr`; `R` are the records of the execution. -/
structure Hist (C : Cfg) (R : List RunRecord) (tr : List Event) : Prop where
  shape : ∀ n, life n tr <+: [.before, .after] ∨
    life n tr <+: [.before, .launch, .begin false, .end, .log, .after] ∨
    life n tr <+: [.before, .begin true, .end, .log, .after]
  nodup : (R.map RunRecord.node).Nodup
  recs : ∀ r ∈ recsOf tr, r ∈ R
  before : ∀ pre er n post, tr = pre ++ .beforeRun er n :: post →
    n ∈ C.dag.nodes ∧ ∀ m, AfterEdge C.dag n m → Recorded pre m
  excl : ∀ pre post, tr = pre ++ post → ∀ a b, Running pre a → Running pre b → a ≠ b →
    ∀ r ∈ C.resources a, r ∉ C.resources b
  threads : ∀ pre post, tr = pre ++ post → ∀ l : List Node, l.Nodup → (∀ n ∈ l, Running pre n) →
    l.length ≤ max 1 C.threadCount
  start : ∀ n, JobBegan tr n → Stale C.dag C.ask n ∧
    ∀ r ∈ R, HasEdge C.dag .requires n r.node → ¬ Bad r
  status : ∀ r ∈ R, (r.status = .depf ↔ ∃ r2 ∈ R, HasEdge C.dag .requires r.node r2.node ∧ Bad r2) ∧
    (r.status = .depf → r.retcode = 0 ∧ r.output = []) ∧
    (r.status ≠ .depf → ¬ Stale C.dag C.ask r.node →
      r.status = .skip ∧ r.retcode = 0 ∧ r.output = []) ∧
    (r.status ≠ .depf → Stale C.dag C.ask r.node →
      C.workload.result r.node r.retcode r.output ∧
      r.status = if r.retcode = 0 then .ok else .fail)
  began : ∀ r ∈ recsOf tr, JobBegan tr r.node ↔ r.status = .ok ∨ r.status = .fail

/-- where a tag stands in a node's history -/
theorem prefix_cases {C : Cfg} {R : List RunRecord} {tr : List Event} (H : Hist C R tr)
    {pre post : List Event} {e : Event}
    {n : Node} {t : Tag} (htr : tr = pre ++ e :: post) (ht : tagOf n e = some t) :
    (t = .before → life n pre = []) ∧
    (t = .launch → life n pre = [.before]) ∧
    (∀ b, t = .begin b → life n pre = [.before] ∨ life n pre = [.before, .launch]) ∧
    (t = .end → life n pre = [.before, .launch, .begin false] ∨ life n pre = [.before, .begin true]) ∧
    (t = .after → life n pre = [.before] ∨ life n pre = [.before, .launch, .begin false, .end, .log] ∨
      life n pre = [.before, .begin true, .end, .log]) := by
  have h := H.shape n
  rw [htr, life_snoc, ht] at h
  generalize life n pre = l at h
  generalize life n post = k at h
  have key : ∀ L : List Tag, l ++ ((some t).toList ++ k) <+: L → ∃ r, L = l ++ t :: r := by
    rintro L ⟨r, rfl⟩
    exact ⟨k ++ r, by simp⟩
  rcases h with h | h | h <;> obtain ⟨r, hr⟩ := key _ h <;> clear h key ht htr
  all_goals
    rcases l with _ | ⟨a, _ | ⟨b, _ | ⟨c, _ | ⟨d, _ | ⟨e', _ | ⟨f, l⟩⟩⟩⟩⟩⟩ <;>
      simp at hr <;> grind

theorem recorded_snoc {pre : List Event} {e : Event} {n : Node} :
    Recorded (pre ++ [e]) n ↔ Recorded pre n ∨ tagOf n e = some .after := by
  rw [after_mem_life, after_mem_life, life_snoc]
  cases h : tagOf n e with
  | none => simp [life]
  | some t => simp [life, eq_comm]

theorem ended_snoc {pre : List Event} {e : Event} {n : Node} :
    JobEnded (pre ++ [e]) n ↔ JobEnded pre n ∨ e = .jobEnd n := by
  simp [JobEnded, eq_comm]

theorem began_snoc {pre : List Event} {e : Event} {n : Node} :
    JobBegan (pre ++ [e]) n ↔ JobBegan pre n ∨ ∃ b, e = .jobBegin n b := by
  simp only [JobBegan, List.mem_append, List.mem_singleton]
  constructor
  · rintro ⟨b, h | h⟩
    · exact .inl ⟨b, h⟩
    · exact .inr ⟨b, h.symm⟩
  · rintro (⟨b, h⟩ | ⟨b, h⟩)
    · exact ⟨b, .inl h⟩
    · exact ⟨b, .inr h.symm⟩

/-- a record is found again in the whole history -/
theorem Hist.mem {C : Cfg} {R : List RunRecord} {tr : List Event} (H : Hist C R tr)
    {pre post : List Event} {r : RunRecord} (htr : tr = pre ++ post) (hr : r ∈ recsOf pre) : r ∈ R :=
  H.recs r (by rw [htr, recsOf_append]; exact List.mem_append_left _ hr)

theorem Hist.unique {C : Cfg} {R : List RunRecord} {tr : List Event} (H : Hist C R tr)
    {r r2 : RunRecord} (h : r ∈ R) (h2 : r2 ∈ R) (hn : r.node = r2.node) : r = r2 :=
  List.inj_on_of_nodup_map H.nodup h h2 hn

theorem Hist.guard {C : Cfg} {R : List RunRecord} {tr : List Event} (H : Hist C R tr)
    {pre post : List Event} {n : Node} (htr : tr = pre ++ post) (hb : Tag.before ∈ life n pre) :
    n ∈ C.dag.nodes ∧ ∀ m, AfterEdge C.dag n m → Recorded pre m := by
  obtain ⟨e, he, ht⟩ := List.mem_filterMap.1 hb
  obtain ⟨er, rfl⟩ : ∃ er, e = .beforeRun er n := by
    unfold tagOf at ht
    split at ht <;> simp at ht
    rename_i er m
    exact ⟨er, by rw [ht]⟩
  obtain ⟨p, q, rfl⟩ := List.append_of_mem he
  have hg := H.before p er n (q ++ post) (by rw [htr]; simp)
  refine ⟨hg.1, fun m hm => ?_⟩
  obtain ⟨r, hr, hn⟩ := hg.2 m hm
  exact ⟨r, by rw [recsOf_append]; exact List.mem_append_left _ hr, hn⟩

theorem refines {C : Cfg} {R : List RunRecord} {tr : List Event} (H : Hist C R tr)
    (hra : ∀ a b, HasEdge C.dag .requires a b → AfterEdge C.dag a b)
    (pre : List Event) : ∀ post, tr = pre ++ post →
      ∃ σ, Sched.Runs C.workload (acts pre) σ ∧ Rel C pre σ := by
  induction pre using List.reverseRecOn with
  | nil =>
    intro post _
    refine ⟨_, .init, ?_, List.nodup_nil, ?_, List.nodup_nil, rfl⟩ <;> intro n <;>
      simp [Sched.init, Running, JobBegan, JobEnded]
  | append_singleton pre e ih =>
    intro post htr
    have htr' : tr = pre ++ e :: post := by simpa using htr
    obtain ⟨σ, hσ, hR⟩ := ih (e :: post) htr'
    have hnone : Event.act e = none → (∀ n, tagOf n e ≠ some .after) →
        (∀ n, e ≠ .jobEnd n) → (∀ n b, e ≠ .jobBegin n b) → (recsOf [e] = []) →
        ∃ σ, Sched.Runs C.workload (acts (pre ++ [e])) σ ∧ Rel C (pre ++ [e]) σ := by
      intro h1 h2 h3 h4 h5
      refine ⟨σ, by simpa [acts, h1] using hσ, ?_, hR.runNd, ?_, hR.endNd, ?_⟩
      · intro n; rw [hR.run]; unfold Running; rw [began_snoc, ended_snoc]; simp [h3, h4]
      · intro n; rw [hR.ended, ended_snoc, recorded_snoc]; simp [h2, h3]
      · rw [hR.done, recsOf_append, h5, List.append_nil]
    cases e with
    | jobBegin n b =>
      obtain ⟨h4, h5⟩ := H.start n ⟨b, by rw [htr']; simp⟩
      have hl := (prefix_cases H (n := n) htr' (t := .begin b) (by simp [tagOf])).2.2.1 b rfl
      have hnb : ¬ JobBegan pre n := by
        rw [begin_mem_life]; rcases hl with h | h <;> rw [h] <;> simp
      have hnr : ¬ Running pre n := fun h => hnb h.1
      have hne : ¬ JobEnded pre n := by
        rw [end_mem_life]; rcases hl with h | h <;> rw [h] <;> simp
      have hnc : ¬ Recorded pre n := by
        rw [after_mem_life]; rcases hl with h | h <;> rw [h] <;> simp
      have hb : Tag.before ∈ life n pre := by rcases hl with h | h <;> rw [h] <;> simp
      obtain ⟨hnode, h1⟩ := H.guard htr' hb
      have hrn : Running (pre ++ [.jobBegin n b]) n :=
        ⟨began_snoc.2 (.inr ⟨b, rfl⟩), by rw [ended_snoc]; simp [hne]⟩
      have hrm : ∀ m, m ∈ σ.running → Running (pre ++ [.jobBegin n b]) m := by
        intro m hm
        obtain ⟨x1, x2⟩ := (hR.run m).1 hm
        exact ⟨began_snoc.2 (.inl x1), by rw [ended_snoc]; simp [x2]⟩
      refine ⟨{ σ with running := n :: σ.running }, ?_, ?_, ?_, ?_, hR.endNd, ?_⟩
      · have : acts (pre ++ [.jobBegin n b]) = acts pre ++ [.begin n] := by simp [acts, Event.act]
        rw [this]
        refine .snoc hσ (.begin ⟨hnode, ⟨?_, ?_, ?_⟩, fun m hm => (hR.doneIff m).2 (h1 m hm)⟩ ?_ h4
          ?_ ?_)
        · rw [hR.run]; exact hnr
        · rw [hR.ended]; exact fun h => hne h.1
        · rw [hR.doneIff]; exact hnc
        · rw [hR.spoiltIff]
          rintro ⟨r, hr, he, hb⟩
          exact h5 r (H.mem htr' hr) he hb
        · intro m hm
          exact H.excl _ post htr n m hrn (hrm m hm) fun hx => hnr (hx ▸ (hR.run m).1 hm)
        · refine H.threads _ post htr (n :: σ.running)
            (List.nodup_cons.2 ⟨fun h => hnr ((hR.run n).1 h), hR.runNd⟩) ?_
          intro m hm
          rcases List.mem_cons.1 hm with rfl | hm
          · exact hrn
          · exact hrm m hm
      · intro m
        simp only [List.mem_cons]
        rw [hR.run]
        unfold Running
        rw [began_snoc, ended_snoc]
        constructor
        · rintro (rfl | h)
          · exact ⟨.inr ⟨b, rfl⟩, by simp [hne]⟩
          · exact ⟨.inl h.1, by simp [h.2]⟩
        · rintro ⟨h | ⟨b', h⟩, h'⟩
          · exact .inr ⟨h, fun hx => h' (.inl hx)⟩
          · cases h; exact .inl rfl
      · exact List.nodup_cons.2 ⟨by rw [hR.run]; exact hnr, hR.runNd⟩
      · intro m; show m ∈ σ.ended ↔ _; rw [hR.ended, ended_snoc, recorded_snoc]; simp [tagOf]
      · show σ.done = _; rw [hR.done, recsOf_append]; simp [recsOf]
    | jobEnd n =>
      have hl := (prefix_cases H (n := n) htr' (t := .end) (by simp [tagOf])).2.2.2.1 rfl
      have hb : JobBegan pre n := by
        rw [begin_mem_life]; rcases hl with h | h <;> rw [h] <;> simp
      have hne : ¬ JobEnded pre n := by
        rw [end_mem_life]; rcases hl with h | h <;> rw [h] <;> simp
      have hnc : ¬ Recorded pre n := by
        rw [after_mem_life]; rcases hl with h | h <;> rw [h] <;> simp
      refine ⟨{ σ with running := σ.running.erase n, ended := n :: σ.ended }, ?_, ?_, ?_, ?_, ?_, ?_⟩
      · have : acts (pre ++ [.jobEnd n]) = acts pre ++ [.end n] := by simp [acts, Event.act]
        rw [this]
        exact .snoc hσ (.end ((hR.run n).2 ⟨hb, hne⟩))
      · intro m
        show m ∈ σ.running.erase n ↔ _
        rw [hR.runNd.mem_erase_iff, hR.run]
        unfold Running
        rw [began_snoc, ended_snoc]
        constructor
        · rintro ⟨hmn, h1, h2⟩
          exact ⟨.inl h1, by rintro (h | h); exact h2 h; cases h; exact hmn rfl⟩
        · rintro ⟨h | ⟨b, h⟩, h2⟩
          · exact ⟨fun hx => h2 (.inr (by rw [hx])), h, fun hx => h2 (.inl hx)⟩
          · cases h
      · exact hR.runNd.erase n
      · intro m
        show m ∈ n :: σ.ended ↔ _
        rw [List.mem_cons, hR.ended, ended_snoc, recorded_snoc]
        constructor
        · rintro (rfl | h)
          · exact ⟨.inr rfl, by simp [tagOf, hnc]⟩
          · exact ⟨.inl h.1, by simp [tagOf, h.2]⟩
        · rintro ⟨h | h, h2⟩
          · exact .inr ⟨h, fun hx => h2 (.inl hx)⟩
          · cases h; exact .inl rfl
      · exact List.nodup_cons.2 ⟨by rw [hR.ended]; exact fun h => hne h.1, hR.endNd⟩
      · show σ.done = _; rw [hR.done, recsOf_append]; simp [recsOf]
    | afterRun er r ref =>
      have hl := (prefix_cases H (n := r.node) htr' (t := .after) (by simp [tagOf])).2.2.2.2 rfl
      have hrt' : r ∈ recsOf tr := by rw [htr', recsOf_append]; simp [recsOf]
      have hrt := H.recs r hrt'
      have hnc : ¬ Recorded pre r.node := by
        rw [after_mem_life]; rcases hl with h | h | h <;> rw [h] <;> simp
      have hbef : Tag.before ∈ life r.node pre := by rcases hl with h | h | h <;> rw [h] <;> simp
      obtain ⟨hnode, hpre⟩ := H.guard htr' hbef
      obtain ⟨d1, d2, d3, d4⟩ := H.status r hrt
      have hact : acts (pre ++ [.afterRun er r ref]) =
          acts pre ++ [.record r.node r.status r.retcode r.output] := by simp [acts, Event.act]
      have hrec : recsOf [Event.afterRun er r ref] = [r] := by simp [recsOf]
      have hsp : σ.Spoilt C.workload r.node ↔ r.status = .depf := by
        rw [hR.spoiltIff, d1]
        constructor
        · rintro ⟨r2, h2, h⟩; exact ⟨r2, H.mem htr' h2, h⟩
        · rintro ⟨r2, h2, he, hb⟩
          obtain ⟨r3, h3, hn⟩ := hpre _ (hra _ _ he)
          have := H.unique (H.mem htr' h3) h2 hn
          subst this
          exact ⟨r3, h3, he, hb⟩
      have hbg := H.began r hrt'
      have hpreb : JobBegan tr r.node → JobEnded pre r.node := by
        intro hb
        rw [htr', begin_mem_life, life_snoc] at hb
        rw [end_mem_life]
        rcases hl with h | h | h
        · exfalso
          have hs := H.shape r.node
          obtain ⟨b, hb⟩ := hb
          rw [htr', life_snoc, h] at hs
          rw [h] at hb
          generalize life r.node post = k at hs hb
          simp [tagOf] at hs hb
          subst hs
          simp at hb
        · rw [h]; simp
        · rw [h]; simp
      have hnob : ¬ JobBegan tr r.node → σ.Untouched r.node := by
        intro hb
        have hb' : ¬ JobBegan pre r.node := by
          rintro ⟨b, hx⟩; exact hb ⟨b, by rw [htr']; exact List.mem_append_left _ hx⟩
        refine ⟨by rw [hR.run]; exact fun h => hb' h.1, ?_, by rw [hR.doneIff]; exact hnc⟩
        rw [hR.ended, end_mem_life]
        rintro ⟨h, -⟩
        rw [begin_mem_life] at hb'
        rcases hl with h' | h' | h' <;> rw [h'] at hb' h <;> simp at hb' h
      have hrun : ∀ m, m ∈ σ.running ↔ Running (pre ++ [.afterRun er r ref]) m := by
        intro m; rw [hR.run]; unfold Running; rw [began_snoc, ended_snoc]; simp
      have hdone : σ.done ++ [(r.node, r.status)] =
          (recsOf (pre ++ [.afterRun er r ref])).map (fun r => (r.node, r.status)) := by
        rw [recsOf_append, hrec, hR.done]; simp
      have hturn : ¬ JobBegan tr r.node → σ.Turn C.workload r.node := fun hb =>
        ⟨hnode, hnob hb, fun m hm => (hR.doneIff m).2 (hpre m hm)⟩
      have hend : ¬ JobBegan tr r.node → ∀ m, m ∈ σ.ended ↔
          JobEnded (pre ++ [.afterRun er r ref]) m ∧ ¬ Recorded (pre ++ [.afterRun er r ref]) m := by
        intro hb m
        rw [hR.ended, ended_snoc, recorded_snoc]
        constructor
        · rintro ⟨h1, h2⟩
          refine ⟨.inl h1, ?_⟩
          rintro (h | h)
          · exact h2 h
          · have : r.node = m := by
              by_contra hx; simp [tagOf, hx] at h
            subst this
            exact (hnob hb).2.1 ((hR.ended _).2 ⟨h1, h2⟩)
        · rintro ⟨h1 | h1, h2⟩
          · exact ⟨h1, fun h => h2 (.inl h)⟩
          · cases h1
      by_cases hdep : r.status = .depf
      · have hb : ¬ JobBegan tr r.node := by rw [hbg, hdep]; simp
        refine ⟨{ σ with done := σ.done ++ [(r.node, .depf)] }, ?_, hrun, hR.runNd, hend hb, hR.endNd,
          by rw [← hdone, hdep]⟩
        rw [hact, hdep, (d2 hdep).1, (d2 hdep).2]
        exact .snoc hσ (.depf (hturn hb) (hsp.2 hdep))
      · by_cases hst : Stale C.dag C.ask r.node
        · obtain ⟨c1, c3⟩ := d4 hdep hst
          have hb : JobBegan tr r.node := by
            rw [hbg, c3]; split <;> simp
          have hen := hpreb hb
          refine ⟨{ σ with ended := σ.ended.erase r.node
                           done := σ.done ++ [(r.node, if r.retcode = 0 then .ok else .fail)] },
            ?_, hrun, hR.runNd, ?_, hR.endNd.erase _, by rw [← hdone, c3]⟩
          · rw [hact, c3]
            exact .snoc hσ (.result ((hR.ended _).2 ⟨hen, hnc⟩) c1)
          · intro m
            show m ∈ σ.ended.erase r.node ↔ _
            rw [hR.endNd.mem_erase_iff, hR.ended, ended_snoc, recorded_snoc]
            by_cases hm : r.node = m
            · subst hm; simp [tagOf]
            · simp [tagOf, hm, Ne.symm hm]
        · obtain ⟨c1, c2, c3⟩ := d3 hdep hst
          have hb : ¬ JobBegan tr r.node := by rw [hbg, c1]; simp
          refine ⟨{ σ with done := σ.done ++ [(r.node, .skip)] }, ?_, hrun, hR.runNd, hend hb, hR.endNd,
            by rw [← hdone, c1]⟩
          rw [hact, c1, c2, c3]
          exact .snoc hσ (.skip (hturn hb) (fun h => hdep (hsp.1 h)) hst)
    | _ =>
      refine hnone rfl ?_ ?_ ?_ rfl
      · intro n; simp [tagOf]
      · intro n h; cases h
      · intro n b h; cases h

/-- where jobs begin, all jobs answered -/
theorem began_answers {C : Cfg} (hwf : C.dag.WF) (ms : List Move) {n : Node} {b : Bool}
    (hb : .jobBegin n b ∈ (exec C ms).trace) :
    ∀ n ∈ C.dag.nodes, C.hasJob n = true ∧ ∃ a, C.ask n = .answer a := by
  obtain ⟨mid, h1, h2, _⟩ := prologue_tail (C := C) hwf
  have hno : ∀ p0 : Phase, ¬ StuckSt C p0 (∃ f, .fault f ∈ ms) (exec C ms) := by
    rintro p0 ⟨_, h⟩
    have hp : (exec C ms).trace <+: (prologue C St.init).trace := by
      rcases h with h | ⟨h, _⟩ | ⟨h, _⟩ | ⟨_, h, _⟩
      · rw [h]; exact List.nil_prefix
      · rw [h]; exact List.nil_prefix
      · rw [h]; exact List.prefix_refl _
      · exact h
    have := hp.subset hb
    rw [h1] at this
    simp only [List.mem_cons, reduceCtorEq, false_or] at this
    have := h2 _ this
    simp [proEv] at this
  rcases prologue_spec hwf with ⟨hc, c, _, hp, _⟩ | ⟨hn, ha, _⟩ | ⟨_, pre, n, post, _, _, _, _, hp⟩
  · exact absurd (stuck_exec hp (.inr ⟨_, rfl⟩) ms) (hno _)
  · exact ha
  · exfalso
    rcases hp with ⟨_, hp⟩ | ⟨_, w, _, hp⟩
    · exact hno _ (stuck_exec hp (.inl rfl) ms)
    · exact hno _ (stuck_exec hp (.inr ⟨_, rfl⟩) ms)

theorem hist_exec {C : Cfg} (hwf : C.dag.WF)
    (hra : ∀ a b, HasEdge C.dag .requires a b → AfterEdge C.dag a b) (ms : List Move) :
    Hist C (recsOf (exec C ms).trace) (exec C ms).trace where
  shape n := by
    rcases C15_node_history C hwf ms n with h | h | h
    · exact .inl h
    · exact .inr (.inl h.2)
    · exact .inr (.inr h.2)
  nodup := (C02_no_double_record C hwf ms).1
  recs r hr := hr
  before pre er n post htr :=
    have hg := (tinv_exec hwf ms).always pre (.beforeRun er n) post htr
    ⟨hg.2.1, hg.2.2.1⟩
  excl pre post htr a b ha hb hab := C03_resource_exclusivity C hwf ms pre post htr a b ha hb hab
  threads pre post htr l hl hr := by
    have := (C04_thread_limit C hwf ms pre post htr).1 l hl hr
    split at this <;> omega
  start n hb := by
    obtain ⟨b, hb'⟩ := id hb
    obtain ⟨pre, post, htr⟩ := List.append_of_mem hb'
    refine ⟨((tinv_exec hwf ms).always pre _ post htr).2.2.2.2.2.1, fun r hr he hbad => ?_⟩
    exact (C05_failed_dependency C hwf ms n r.node he (hra _ _ he) r hr rfl hbad).1 hb
  status r hr := by
    obtain ⟨h1, h2, h3, h4⟩ := status_determined hwf ms (fun b hb => hra _ b hb) hr
    refine ⟨h1, h2, h3, fun ha hb => ?_⟩
    obtain ⟨c1, c2, c3⟩ := h4 ha hb
    have hT := tinv_exec hwf ms
    obtain ⟨b, hjb⟩ := (began_of_status hT (by rw [← hT.recs]; exact hr)).1.2
      (show r.status = .ok ∨ r.status = .fail by rw [c3]; split <;> simp)
    exact ⟨⟨(began_answers hwf ms hjb _ ((C02_no_double_record C hwf ms).2 r hr)).1, c1, c2⟩, c3⟩
  began r hr := (began_of_status (tinv_exec hwf ms) (by rw [← (tinv_exec hwf ms).recs]; exact hr)).1

/-- a node that has its record in a beginning has its whole history there -/
theorem life_seen {C : Cfg} (hwf : C.dag.WF) (fms : List FMove) {r : RunRecord} {ms : List Move}
    (hlife : ∀ n, life n ((fexec C fms).seen ++ (fexec C fms).pend) = life n (exec C ms).trace)
    (hr : r ∈ recsOf (fexec C fms).seen) (hr2 : r ∈ recsOf (exec C ms).trace) :
    life r.node (fexec C fms).seen = recLife C.threadCount r.status := by
  have hT := tinv_exec hwf ms
  have hl := hT.lifeRec r (by rw [← hT.recs]; exact hr2)
  rw [← hlife, life_append] at hl
  obtain ⟨x, hx1, hx2, _⟩ := recLife_snoc C.threadCount r.status
  have ha : Tag.after ∈ life r.node (fexec C fms).seen := after_mem_life.1 ⟨r, hr, rfl⟩
  have hnil := last_split (by rw [hl, hx1]) hx2 ha
  rw [hnil, List.append_nil] at hl; exact hl

theorem hist_fine {C : Cfg} (hwf : C.dag.WF)
    (hra : ∀ a b, HasEdge C.dag .requires a b → AfterEdge C.dag a b) (fms : List FMove) :
    ∃ R, Hist C R (fexec C fms).seen := by
  obtain ⟨ms, hs, -, hperm, -, hctl, hlife, -⟩ := C95_same C hwf fms
  have H := hist_exec hwf hra ms
  have hmem : ∀ e ∈ (fexec C fms).seen, e ∈ (exec C ms).trace := fun e he =>
    hperm.mem_iff.1 (List.mem_append_left _ he)
  have hrecs : ∀ r ∈ recsOf (fexec C fms).seen, r ∈ recsOf (exec C ms).trace := by
    intro r hr
    obtain ⟨er, m, h⟩ := mem_recsOf.1 hr
    exact mem_recsOf.2 ⟨er, m, hmem _ h⟩
  refine ⟨recsOf (exec C ms).trace, ?_, H.nodup, hrecs, ?_, ?_, ?_, ?_, H.status, ?_⟩
  · intro n
    have h := H.shape n
    rw [← hlife n, life_append] at h
    exact h.imp (fun x => (List.prefix_append _ _).trans x)
      (fun y => y.imp (fun x => (List.prefix_append _ _).trans x)
        (fun x => (List.prefix_append _ _).trans x))
  · intro pre er n post htr
    obtain ⟨u, v, huv, hnu⟩ := List.eq_append_cons_of_mem
      (hmem (.beforeRun er n) (by rw [htr]; simp))
    obtain ⟨g1, g2⟩ := H.before u er n v huv
    refine ⟨g1, fun m hm => ?_⟩
    obtain ⟨r, hr, rfl⟩ := g2 m hm
    obtain ⟨er', ref, hr'⟩ := mem_recsOf.1 hr
    have hx : Event.afterRun er' r ref ∈ pre ++ [.beforeRun er n] :=
      mem_of_prefix_filter (rest := post ++ (fexec C fms).pend) hctl (by rw [htr]; simp) huv rfl rfl
        hr' hnu (by simp)
    exact ⟨r, mem_recsOf.2 ⟨er', ref, by simpa using hx⟩, rfl⟩
  · exact fun pre post htr a b ha hb hab => C95_resources C hwf fms pre post htr a b ha hb hab
  · intro pre post htr l hl hr
    have := (C95_threads C hwf fms pre post htr).1 l hl hr
    split at this <;> omega
  · rintro n ⟨b, hb⟩
    exact H.start n ⟨b, hmem _ hb⟩
  · intro r hr
    rw [begin_mem_life, life_seen hwf fms hlife hr (hrecs r hr)]
    by_cases h0 : C.threadCount = 0 <;> cases r.status <;> simp [recLife, h0]

end Scheduler

open Scheduler

/-- **C113**, part 1.  Whatever happens, what one has seen of the tasks of an execution at any moment
is a run of the machine, and the machine's state says which jobs execute, which have ended without
having got their record, and the records handed out. -/
theorem C113_refines (C : Cfg) (hwf : C.dag.WF)
    (hra : ∀ a b, HasEdge C.dag .requires a b → AfterEdge C.dag a b) (ms : List Move)
    (pre post : List Event) (htr : (exec C ms).trace = pre ++ post) :
    ∃ σ, Sched.Runs C.workload (pre.filterMap Event.act) σ ∧
      (∀ n, n ∈ σ.running ↔ Running pre n) ∧
      (∀ n, n ∈ σ.ended ↔ JobEnded pre n ∧ ¬ Recorded pre n) ∧
      σ.done = (recsOf pre).map (fun r => (r.node, r.status)) := by
  obtain ⟨σ, h, hR⟩ := refines (hist_exec hwf hra ms) hra pre post htr
  exact ⟨σ, h, hR.run, hR.ended, hR.done⟩

/-- **C113**, part 1, with anything happening between two calls of a portion (C95). -/
theorem C113_fine (C : Cfg) (hwf : C.dag.WF)
    (hra : ∀ a b, HasEdge C.dag .requires a b → AfterEdge C.dag a b) (fms : List FMove)
    (pre post : List Event) (htr : (fexec C fms).seen = pre ++ post) :
    ∃ σ, Sched.Runs C.workload (pre.filterMap Event.act) σ ∧
      (∀ n, n ∈ σ.running ↔ Running pre n) ∧
      (∀ n, n ∈ σ.ended ↔ JobEnded pre n ∧ ¬ Recorded pre n) ∧
      σ.done = (recsOf pre).map (fun r => (r.node, r.status)) := by
  obtain ⟨R, H⟩ := hist_fine hwf hra fms
  obtain ⟨σ, h, hR⟩ := refines H hra pre post htr
  exact ⟨σ, h, hR.run, hR.ended, hR.done⟩

theorem Ex.hra (tc : Nat) : ∀ a b, HasEdge (Ex.cfg tc).dag .requires a b →
    AfterEdge (Ex.cfg tc).dag a b := by
  intro a b h
  have h' : (⟨a, b, .requires⟩ : Edge) ∈ Ex.dag.edges := h
  simp [Ex.dag] at h'
  obtain ⟨rfl, rfl⟩ := h'
  show _ ∈ Ex.dag.edges
  decide

/-- A complete run: task 1 fails, so task 3, which requires it, is passed over; task 4, which shares a
resource with task 1, begins when task 1 is done; task 5 is up to date. -/
example : (Ex.cfg 2).dag.WF ∧ (∀ a b, HasEdge (Ex.cfg 2).dag .requires a b →
      AfterEdge (Ex.cfg 2).dag a b) ∧
    (exec (Ex.cfg 2) Ex.done2).trace.filterMap Event.act =
      [.begin 1, .end 1, .record 1 .fail 5 [⟨.standard, ['h']⟩], .record 5 .skip 0 [],
       .begin 4, .end 4, .record 4 .ok 0 [⟨.standard, ['h']⟩],
       .begin 2, .end 2, .record 2 .ok 0 [⟨.standard, ['h']⟩], .record 3 .depf 0 []] :=
  ⟨Ex.wf 2, Ex.hra 2, by decide +kernel⟩

/-- The machine accepts orders the engine does not produce: here 5 is settled first, and 4 begins before
1, which has its turn too. -/
example : ∃ σ, Sched.Runs (Ex.cfg 2).workload [.record 5 .skip 0 [], .begin 4] σ ∧ σ.running = [4] := by
  have h5 : ¬ Stale (Ex.cfg 2).dag (Ex.cfg 2).ask 5 := by
    rintro ⟨m, hm, l, hl⟩
    have : m = 5 := by
      rcases Relation.ReflTransGen.cases_head hm with h | ⟨c, h, _⟩
      · exact h.symm
      · have h' : (⟨5, c, .invalidatedBy⟩ : Edge) ∈ Ex.dag.edges := h
        simp [Ex.dag] at h'
    subst this
    simp [Ex.cfg] at hl
  have hno : ∀ k n b, (⟨n, b, k⟩ : Edge) ∈ Ex.dag.edges → n ≠ 5 ∧ n ≠ 4 := by
    have h : ∀ e ∈ Ex.dag.edges, e.src ≠ 5 ∧ e.src ≠ 4 := by decide
    exact fun k n b he => h _ he
  refine ⟨_, .snoc (.snoc .init (.skip ⟨by show 5 ∈ Ex.dag.nodes; decide, ⟨by decide, by decide, ?_⟩, ?_⟩ ?_ h5))
    (.begin ⟨by show 4 ∈ Ex.dag.nodes; decide, ⟨by decide, by decide, ?_⟩, ?_⟩ ?_ ?_ ?_ ?_), rfl⟩
  · rintro ⟨_, h⟩; cases h
  · intro m hm; exact absurd rfl (hno _ _ _ hm).1
  · rintro ⟨m, hm, _⟩; exact absurd rfl (hno _ _ _ hm).1
  · rintro ⟨_, h⟩; simp [Sched.init] at h
  · intro m hm; exact absurd rfl (hno _ _ _ hm).2
  · rintro ⟨m, hm, _⟩; exact absurd rfl (hno _ _ _ hm).2
  · exact ⟨4, .refl, [], rfl⟩
  · intro m hm; cases hm
  · decide

/-- **C113**, part 7.  An execution that ends successfully ends with the results of every run of the
machine that settles all tasks. -/
theorem C113_outcome (C : Cfg) (hwf : C.dag.WF)
    (hra : ∀ a b, HasEdge C.dag .requires a b → AfterEdge C.dag a b) (ms : List Move)
    (hfin : (exec C ms).phase = .finished) (as : List (Act Node)) (σ : Sched Node) (hσ : Sched.Runs C.workload as σ)
    (hall : ∀ n ∈ C.dag.nodes, σ.Done n) :
    σ.done.Perm ((exec C ms).erec.runs.map fun r => (r.node, r.status)) := by
  have hO := OK.runs (Cfg.workload_ok hra) hσ
  obtain ⟨τ, hτ, hR⟩ := refines (hist_exec hwf hra ms) hra _ [] (List.append_nil _).symm
  have hO' := OK.runs (Cfg.workload_ok hra) hτ
  have hT := tinv_exec hwf ms
  rw [← hT.recs, ← hR.done]
  have hrec := (C02_one_record C hwf ms hfin).1
  refine (List.perm_ext_iff_of_nodup (List.Nodup.of_map _ hO.doneNd)
    (List.Nodup.of_map _ hO'.doneNd)).2 fun p => ⟨fun h => ?_, fun h => ?_⟩
  · obtain ⟨n, s⟩ := p
    have hn : n ∈ (exec C ms).erec.runs.map RunRecord.node := hrec.mem_iff.2 (hO.inDone _ h)
    obtain ⟨r, hr, rfl⟩ := List.mem_map.1 hn
    have hr' : (r.node, r.status) ∈ τ.done := by
      rw [hR.done, hT.recs]; exact List.mem_map.2 ⟨r, hr, rfl⟩
    rw [C113_results C.workload (Cfg.workload_ok hra) _ _ σ τ hσ hτ _ _ _ h hr']
    exact hr'
  · obtain ⟨n, s⟩ := p
    obtain ⟨t, ht⟩ := hall n (hO'.inDone _ h)
    rw [← C113_results C.workload (Cfg.workload_ok hra) _ _ σ τ hσ hτ _ _ _ ht h]
    exact ht

/-- both kinds of executions end with the results of the machine -/
example : (exec (Ex.cfg 2) Ex.done2).phase = .finished ∧ (exec (Ex.cfg 0) Ex.done0).phase = .finished ∧
    ¬ Cyclic (Ex.cfg 2).dag ∧
    (∀ n ∈ (Ex.cfg 2).dag.nodes, (asyncLambda ((Ex.cfg 2).outcome n)).retcode ≠ none) :=
  ⟨Ex.fin2, Ex.fin0, fun hc => ((C09_exact (Ex.cfg 2) (Ex.wf 2) Ex.done2).2 hc).1 Ex.fin2,
   by decide⟩

/-! ## In terms of tasks -/

/-- What the execution of the tasks `sel` is to do, in terms of what they declare. -/
def taskWorkload (st : Store) (sel : TaskId → Prop) (tc : Nat) : Workload TaskId where
  task := sel
  after := OrderedAfter st sel
  requires t d := sel t ∧ d ∈ (st t).dependsOn
  stale := OutOfDate st sel
  resources t := (st t).resources
  result t rc out := ∃ j, (st t).job = some j ∧ Yields j rc out
  limit := max 1 tc

/-- the same action, said about something else -/
def Act.map {α β : Type} (f : α → β) : Act α → Act β
  | .begin n => .begin (f n)
  | .end n => .end (f n)
  | .record n st rc out => .record (f n) st rc out

/-- the same state, said about something else -/
def Sched.map {α β : Type} (f : α → β) (σ : Sched α) : Sched β :=
  ⟨σ.running.map f, σ.ended.map f, σ.done.map fun p => (f p.1, p.2)⟩

namespace Scheduler

/-- `f` makes the workload `Q` out of `P` -/
structure Embeds {α β : Type} (P : Workload α) (Q : Workload β) (f : α → β) : Prop where
  inj : ∀ a b, P.task a → P.task b → f a = f b → a = b
  task : ∀ a, P.task a → Q.task (f a)
  after : ∀ a y, P.task a → Q.after (f a) y → ∃ b, P.task b ∧ f b = y ∧ P.after a b
  requires : ∀ a b, P.task a → P.task b → (P.requires a b ↔ Q.requires (f a) (f b))
  reqIn : ∀ a b, P.requires a b → P.task b
  stale : ∀ a, P.task a → (P.stale a ↔ Q.stale (f a))
  resources : ∀ a, P.resources a = Q.resources (f a)
  result : ∀ a rc out, P.task a → P.result a rc out → Q.result (f a) rc out
  limit : P.limit = Q.limit

section
variable {α β : Type} [DecidableEq α] [DecidableEq β] {P : Workload α} {Q : Workload β} {f : α → β}

omit [DecidableEq α] [DecidableEq β] in
theorem Embeds.mem (hE : Embeds P Q f) {l : List α} (hl : ∀ x ∈ l, P.task x) {n : α} (hn : P.task n) :
    f n ∈ l.map f ↔ n ∈ l := by
  constructor
  · intro h
    obtain ⟨x, hx, he⟩ := List.mem_map.1 h
    rw [← hE.inj x n (hl x hx) hn he]; exact hx
  · exact List.mem_map_of_mem

omit [DecidableEq α] [DecidableEq β] in
theorem Embeds.done (hE : Embeds P Q f) {σ : Sched α} (hO : OK P σ) {n : α} (hn : P.task n)
    (st : Status) : (f n, st) ∈ (σ.map f).done ↔ (n, st) ∈ σ.done := by
  constructor
  · intro h
    obtain ⟨x, hx, he⟩ := List.mem_map.1 h
    obtain ⟨h1, h2⟩ := Prod.mk.inj he
    have := hE.inj x.1 n (hO.inDone x hx) hn h1
    rw [← this, ← h2]; exact hx
  · intro h; exact List.mem_map.2 ⟨_, h, rfl⟩

theorem Embeds.erase (hE : Embeds P Q f) {l : List α} (hl : ∀ x ∈ l, P.task x) {n : α}
    (hn : P.task n) : (l.erase n).map f = (l.map f).erase (f n) := by
  induction l with
  | nil => rfl
  | cons x l ih =>
    rw [List.map_cons, List.erase_cons, List.erase_cons]
    by_cases hx : x = n
    · subst hx; simp
    · have : f x ≠ f n := fun h => hx (hE.inj x n (hl x (by simp)) hn h)
      simp only [beq_iff_eq, hx, this, if_false, List.map_cons]
      rw [ih fun y hy => hl y (by simp [hy])]

omit [DecidableEq α] [DecidableEq β] in
theorem Embeds.spoilt (hE : Embeds P Q f) {σ : Sched α} (hO : OK P σ) {n : α} (hn : P.task n) :
    (σ.map f).Spoilt Q (f n) ↔ σ.Spoilt P n := by
  constructor
  · rintro ⟨y, hr, h⟩
    have : ∃ b, P.task b ∧ f b = y := by
      rcases h with h | h <;> obtain ⟨x, hx, he⟩ := List.mem_map.1 h <;>
        exact ⟨x.1, hO.inDone x hx, (Prod.mk.inj he).1⟩
    obtain ⟨b, hb, rfl⟩ := this
    refine ⟨b, (hE.requires n b hn hb).2 hr, ?_⟩
    rwa [hE.done hO hb, hE.done hO hb] at h
  · rintro ⟨b, hr, h⟩
    have hb := hE.reqIn n b hr
    refine ⟨f b, (hE.requires n b hn hb).1 hr, ?_⟩
    rwa [hE.done hO hb, hE.done hO hb]

omit [DecidableEq α] [DecidableEq β] in
theorem Embeds.turn (hE : Embeds P Q f) {σ : Sched α} (hO : OK P σ) {n : α} (h : σ.Turn P n) :
    (σ.map f).Turn Q (f n) := by
  obtain ⟨hn, ⟨h1, h2, h3⟩, h4⟩ := h
  refine ⟨hE.task n hn, ⟨?_, ?_, ?_⟩, ?_⟩
  · rw [show (σ.map f).running = σ.running.map f from rfl, hE.mem hO.inRun hn]; exact h1
  · rw [show (σ.map f).ended = σ.ended.map f from rfl, hE.mem hO.inEnd hn]; exact h2
  · rintro ⟨st, hx⟩; exact h3 ⟨st, (hE.done hO hn st).1 hx⟩
  · intro y hy
    obtain ⟨b, hb, rfl, hab⟩ := hE.after n y hn hy
    obtain ⟨st, hx⟩ := h4 b hab
    exact ⟨st, (hE.done hO hb st).2 hx⟩

theorem Embeds.step (hE : Embeds P Q f) {σ τ : Sched α} {a : Act α} (hO : OK P σ)
    (hs : Sched.Step P σ a τ) : Sched.Step Q (σ.map f) (a.map f) (τ.map f) := by
  cases hs with
  | @begin n turn sound stale free thread =>
    have hn := turn.1
    refine .begin (hE.turn hO turn) (fun h => sound ((hE.spoilt hO hn).1 h)) ((hE.stale n hn).1 stale)
      ?_ (by rw [← hE.limit]; simpa [Sched.map] using thread)
    intro y hy r hr hr'
    obtain ⟨m, hm, rfl⟩ := List.mem_map.1 hy
    rw [← hE.resources] at hr hr'
    exact free m hm r hr hr'
  | @«end» n run =>
    have hn := hO.inRun n run
    have := Sched.Step.end (P := Q) (σ := σ.map f) (n := f n) (List.mem_map_of_mem run)
    simpa [Sched.map, Act.map, hE.erase hO.inRun hn] using this
  | @result n rc out ended res =>
    have hn := hO.inEnd n ended
    have := Sched.Step.result (P := Q) (σ := σ.map f) (n := f n) (List.mem_map_of_mem ended)
      (hE.result n rc out hn res)
    simpa [Sched.map, Act.map, hE.erase hO.inEnd hn] using this
  | @skip n turn sound fresh =>
    have hn := turn.1
    have := Sched.Step.skip (hE.turn hO turn) (fun h => sound ((hE.spoilt hO hn).1 h))
      (fun h => fresh ((hE.stale n hn).2 h))
    simpa [Sched.map, Act.map] using this
  | @depf n turn spoilt =>
    have := Sched.Step.depf (hE.turn hO turn) ((hE.spoilt hO turn.1).2 spoilt)
    simpa [Sched.map, Act.map] using this

theorem Embeds.runs (hP : P.OK) (hE : Embeds P Q f) {as : List (Act α)} {σ : Sched α}
    (h : Sched.Runs P as σ) : Sched.Runs Q (as.map (Act.map f)) (σ.map f) := by
  induction h with
  | init => exact .init
  | snoc hr hs ih =>
    rw [List.map_append]
    exact .snoc ih (hE.step (OK.runs hP hr) hs)

end

theorem taskWorkload_ok (st : Store) (sel : TaskId → Prop)
    (hsel : ∀ t d, sel t → d ∈ (st t).dependsOn → sel d) (tc : Nat) : (taskWorkload st sel tc).OK where
  req := fun a b h => ⟨h.1, hsel a b h.1 h.2, .inl h.2⟩
  det := by
    rintro n rc rc' out out' ⟨j, h1, h2⟩ ⟨j', h3, h4⟩
    rw [h1] at h3
    cases h3
    rw [yields_iff] at h2 h4
    exact ⟨Option.some.inj (h2.1.symm.trans h4.1), h2.2.trans h4.2.symm⟩

theorem embeds_run {E : BEnv} {ts : TaskSet} {univ visit : List TaskId}
    {order : List TaskId → List TaskId} {filter : Str} {s : BSt}
    (h : Run E ts univ visit order filter s) (tc : Nat) :
    Embeds (execCfg E.store s.dag tc).workload (taskWorkload E.store (Selected E.store ts filter) tc)
      s.dag.task where
  inj a b ha hb he := h.taskInj ha hb he
  task a ha := h.sel ha
  after a y ha hy := by
    obtain ⟨b, hb, rfl⟩ := h.node hy.2.1
    exact ⟨b, hb, rfl, (h.after_iff ha hb).2 hy.2.2⟩
  requires a b ha hb := (h.requires_iff ha hb).trans ⟨fun x => ⟨h.sel ha, x⟩, fun x => x.2⟩
  reqIn a b hab := (h.ends hab).2
  stale a ha := h.stale_iff tc ha
  resources a := rfl
  result a rc out ha := by
    rintro ⟨h1, h2, h3⟩
    simp only [execCfg, Cfg.ofJobs] at h1 h2 h3
    show ∃ j, (E.store (s.dag.task a)).job = some j ∧ _
    cases hj : (E.store (s.dag.task a)).job with
    | none => rw [hj] at h1; cases h1
    | some j =>
      rw [hj] at h2 h3
      exact ⟨j, rfl, yields_iff.2 ⟨h2, h3⟩⟩
  limit := rfl

end Scheduler

/-- **C113**, in terms of what the tasks declare: `exec(ts, thread_count, vis, filter)` executes the
tasks the filter selects as the machine does, whatever the hash order, the addresses, the schedule and
the faults.  No graph is mentioned. -/
theorem C113_tasks (E : BEnv) (ts : TaskSet) (univ visit : List TaskId)
    (order : List TaskId → List TaskId) (filter : Str) (s : BSt)
    (h : Run E ts univ visit order filter s) (tc : Nat) (fms : List FMove)
    (pre post : List Event)
    (htr : (fexec (execCfg E.store s.dag tc) fms).seen = pre ++ post) :
    ∃ σ : Sched TaskId,
      Sched.Runs (taskWorkload E.store (Selected E.store ts filter) tc)
        (pre.filterMap fun e => (Event.act e).map (Act.map s.dag.task)) σ ∧
      (∀ n, Running pre n → s.dag.task n ∈ σ.running) ∧
      σ.done = (recsOf pre).map (fun r => (s.dag.task r.node, r.status)) := by
  obtain ⟨σ, h1, h2, _, h4⟩ := C113_fine (execCfg E.store s.dag tc) (h.wf tc) h.req fms pre post htr
  refine ⟨σ.map s.dag.task, ?_, fun n hn => List.mem_map_of_mem ((h2 n).2 hn), ?_⟩
  · have := (embeds_run h tc).runs (Cfg.workload_ok h.req) h1
    rwa [List.map_filterMap] at this
  · show σ.done.map _ = _
    rw [h4, List.map_map]; rfl

/-- **C113**.  The machine with the declared tasks determines the results of `exec(ts, …)`: every
record of every execution has the status any run of the machine gives to the task. -/
theorem C113_tasks_results (E : BEnv) (ts : TaskSet) (univ visit : List TaskId)
    (order : List TaskId → List TaskId) (filter : Str) (s : BSt)
    (h : Run E ts univ visit order filter s) (tc : Nat) (fms : List FMove) (r : RunRecord)
    (hr : r ∈ recsOf (fexec (execCfg E.store s.dag tc) fms).seen)
    (as : List (Act TaskId)) (σ : Sched TaskId)
    (hσ : Sched.Runs (taskWorkload E.store (Selected E.store ts filter) tc) as σ) (st : Status)
    (hst : (s.dag.task r.node, st) ∈ σ.done) : r.status = st := by
  obtain ⟨τ, h1, _, h3⟩ := C113_tasks E ts univ visit order filter s h tc fms _ []
    (List.append_nil _).symm
  refine C113_results _ (taskWorkload_ok _ _ (fun t d => h.depSel) tc) _ _ τ σ h1 hσ _ _ _ ?_ hst
  rw [h3]
  exact List.mem_map.2 ⟨r, hr, rfl⟩

/-- tasks 10 to 13 with all four statuses: 11 depends on 10, which fails; 12 is up to date -/
example : Run (Ex.kenv (Ex.kstore [] Ex.fresh)) Ex.tree [10, 11, 12, 13] [12, 11, 10, 13] List.reverse []
      (Ex.kst (Ex.kstore [] Ex.fresh)) ∧
    ((Ex.kend [] Ex.fresh 26).trace.filterMap fun e =>
      (Event.act e).map (Act.map (Ex.kst (Ex.kstore [] Ex.fresh)).dag.task)) =
      [.record 12 .skip 0 [], .begin 13, .end 13, .record 13 .ok 0 [], .begin 10, .end 10,
       .record 10 .fail 3 [], .record 11 .depf 0 []] :=
  ⟨Ex.kbuilt_ok [] Ex.fresh (by decide +kernel), by decide +kernel⟩

end Joque
