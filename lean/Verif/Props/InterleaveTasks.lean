import Verif.Props.Interleave
import Verif.Props.Outcome
import Verif.Props.SeqOrder
import Verif.Props.Exec6
import Verif.Props.Fine

/-!
# In which ways the jobs of a task set can interleave

Statement C119, said of tasks.
-/

namespace Joque

theorem JobEv.map_inj {f : Node → TaskId} {S : Node → Prop} (hf : ∀ a b, S a → S b → f a = f b → a = b)
    {x y : JobEv} (hx : ∀ n, x = .begins n ∨ x = .ends n → S n) (hy : ∀ n, y = .begins n ∨ y = .ends n → S n)
    (h : x.map f = y.map f) : x = y := by
  cases x <;> cases y <;> simp only [JobEv.map, JobEv.begins.injEq, JobEv.ends.injEq, reduceCtorEq] at h ⊢
  · exact hf _ _ (hx _ (.inl rfl)) (hy _ (.inl rfl)) h
  · exact hf _ _ (hx _ (.inr rfl)) (hy _ (.inr rfl)) h

/-- all events are of nodes with `S` -/
def Within (S : Node → Prop) (w : List JobEv) : Prop := ∀ x ∈ w, ∀ n, x = .begins n ∨ x = .ends n → S n

theorem within_begins {f : Node → TaskId} {S : Node → Prop} (hf : ∀ a b, S a → S b → f a = f b → a = b)
    {w : List JobEv} (hw : Within S w) {n : Node} (hn : S n) : .begins (f n) ∈ w.map (JobEv.map f) ↔ .begins n ∈ w := by
  constructor
  · intro h
    obtain ⟨x, hx, e⟩ := List.mem_map.1 h
    cases x with
    | ends m => cases e
    | begins m =>
      simp only [JobEv.map, JobEv.begins.injEq] at e
      rwa [← hf m n (hw _ hx m (.inl rfl)) hn e]
  · intro h
    exact List.mem_map.2 ⟨_, h, rfl⟩

theorem within_ends {f : Node → TaskId} {S : Node → Prop} (hf : ∀ a b, S a → S b → f a = f b → a = b)
    {w : List JobEv} (hw : Within S w) {n : Node} (hn : S n) : .ends (f n) ∈ w.map (JobEv.map f) ↔ .ends n ∈ w := by
  constructor
  · intro h
    obtain ⟨x, hx, e⟩ := List.mem_map.1 h
    cases x with
    | begins m => cases e
    | ends m =>
      simp only [JobEv.map, JobEv.ends.injEq] at e
      rwa [← hf m n (hw _ hx m (.inr rfl)) hn e]
  · intro h
    exact List.mem_map.2 ⟨_, h, rfl⟩

/-- a sequence of events of nodes is permitted exactly if the sequence of the events of their tasks is -/
theorem interleaving_map {f : Node → TaskId} {S : Node → Prop} (hf : ∀ a b, S a → S b → f a = f b → a = b)
    {runs : Node → Prop} {must : Node → Node → Prop} {runs' : TaskId → Prop} {must' : TaskId → TaskId → Prop}
    (hr : ∀ n, S n → (runs' (f n) ↔ runs n)) (hm : ∀ a b, S a → S b → (must' (f a) (f b) ↔ must a b))
    (hS : ∀ n, runs n → S n) (hS' : ∀ t, runs' t → ∃ n, S n ∧ f n = t) {w : List JobEv} (hw : Within S w) :
    Interleaving runs' must' (w.map (JobEv.map f)) ↔ Interleaving runs must w := by
  have hsub : ∀ p q, w = p ++ q → Within S p := fun p q e x hx => hw x (by rw [e]; simp [hx])
  constructor
  · intro h
    refine ⟨List.Nodup.of_map _ h.once, fun n hn => ?_, fun p n q e m hm1 hm2 => ?_, fun p n q e => ?_⟩
    · exact (hr n (hw _ hn n (.inl rfl))).1 (h.which _ (List.mem_map.2 ⟨_, hn, rfl⟩))
    · have hn : S n := hw (.begins n) (by rw [e]; simp) n (.inl rfl)
      have hm3 := hS m hm1
      exact (within_ends hf (hsub _ _ e) hm3).1
        (h.order (p.map (JobEv.map f)) (f n) (q.map (JobEv.map f)) (by rw [e]; simp [JobEv.map]) (f m)
          ((hr m hm3).2 hm1) ((hm n m hn hm3).2 hm2))
    · have hn : S n := hw (.ends n) (by rw [e]; simp) n (.inr rfl)
      exact (within_begins hf (hsub _ _ e) hn).1
        (h.ends (p.map (JobEv.map f)) (f n) (q.map (JobEv.map f)) (by rw [e]; simp [JobEv.map]))
  · intro h
    have hsplit : ∀ p x q, w.map (JobEv.map f) = p ++ x :: q → ∃ P y Q, w = P ++ y :: Q ∧ P.map (JobEv.map f) = p ∧
        y.map f = x := by
      intro p x q e
      obtain ⟨P, R, rfl, hP, hR⟩ := List.map_eq_append_iff.1 e
      obtain ⟨y, Q, rfl, hy, -⟩ := List.map_eq_cons_iff.1 hR
      exact ⟨P, y, Q, rfl, hP, hy⟩
    refine ⟨?_, fun t ht => ?_, fun p t q e u hu1 hu2 => ?_, fun p t q e => ?_⟩
    · exact (List.nodup_map_iff_inj_on h.once).2 fun x hx y hy e => JobEv.map_inj hf (hw x hx) (hw y hy) e
    · obtain ⟨x, hx, e⟩ := List.mem_map.1 ht
      cases x with
      | ends m => cases e
      | begins m =>
        simp only [JobEv.map, JobEv.begins.injEq] at e
        rw [← e]
        exact (hr m (hw _ hx m (.inl rfl))).2 (h.which m hx)
    · obtain ⟨P, y, Q, hwe, rfl, hy⟩ := hsplit p _ q e
      cases y with
      | ends m => cases hy
      | begins n =>
        simp only [JobEv.map, JobEv.begins.injEq] at hy
        subst hy
        obtain ⟨m, hm3, rfl⟩ := hS' u hu1
        have hn : S n := hw (.begins n) (by rw [hwe]; simp) n (.inl rfl)
        exact (within_ends hf (hsub _ _ hwe) hm3).2
          (h.order P n Q hwe m ((hr m hm3).1 hu1) ((hm n m hn hm3).1 hu2))
    · obtain ⟨P, y, Q, hwe, rfl, hy⟩ := hsplit p _ q e
      cases y with
      | begins m => cases hy
      | ends n =>
        simp only [JobEv.map, JobEv.ends.injEq] at hy
        subst hy
        have hn : S n := hw (.ends n) (by rw [hwe]; simp) n (.inr rfl)
        exact (within_begins hf (hsub _ _ hwe) hn).2 (h.ends P n Q hwe)

variable {E : BEnv} {ts : TaskSet} {univ visit : List TaskId} {order : List TaskId → List TaskId} {filter : Str}
  {s : BSt}

/-- what makes an execution of a task set come to its end -/
theorem Run.healthy (h : Run E ts univ visit order filter s) (tc : Nat)
    (hc : ¬ OrderCycle E.store (Selected E.store ts filter))
    (hj : JobsOk E.store (Selected E.store ts filter))
    (ha : ∀ t, Selected E.store ts filter t → ∃ j a, (E.store t).job = some j ∧ j.isInvalidated = .answer a) :
    Healthy (execCfg E.store s.dag tc) := by
  have hdag : (execCfg E.store s.dag tc).dag = s.dag := rfl
  have hjob : ∀ n ∈ s.dag.nodes, ∃ j a, (E.store (s.dag.task n)).job = some j ∧ j.isInvalidated = .answer a ∧
      (execCfg E.store s.dag tc).hasJob n = true ∧ (execCfg E.store s.dag tc).ask n = j.isInvalidated ∧
      (execCfg E.store s.dag tc).outcome n = j.run := by
    intro n hn
    obtain ⟨j, a, h1, h2⟩ := ha _ (h.sel hn)
    exact ⟨j, a, h1, h2, by simp [execCfg, Cfg.ofJobs, h1], by simp [execCfg, Cfg.ofJobs, h1],
      by simp [execCfg, Cfg.ofJobs, h1]⟩
  refine ⟨h.wf tc, fun hcy => hc (h.cyclic_iff.1 hcy), fun n hn => ?_, fun n hn => ?_, fun n hn rr hrr => ?_⟩
  · obtain ⟨j, a, -, -, h3, -⟩ := hjob n hn
    exact h3
  · obtain ⟨j, a, -, h2, -, h4, -⟩ := hjob n hn
    exact ⟨a, h4.trans h2⟩
  · obtain ⟨j, a, h1, -, -, -, h5⟩ := hjob n hn
    rw [h5] at hrr
    exact hj.codes _ (h.sel hn) j rr h1 hrr

/-- the jobs that run are those of the selected tasks with verdict OK or FAIL -/
theorem Run.runs_iff (h : Run E ts univ visit order filter s) (tc : Nat)
    (hc : ¬ OrderCycle E.store (Selected E.store ts filter))
    (hj : JobsOk E.store (Selected E.store ts filter))
    (ha : ∀ t, Selected E.store ts filter t → ∃ j a, (E.store t).job = some j ∧ j.isInvalidated = .answer a)
    (v : TaskId → Verdict) (hv : Verdicts E.store (Selected E.store ts filter) v) (n : Node) (hn : n ∈ s.dag.nodes) :
    (Selected E.store ts filter (s.dag.task n) ∧
      ((v (s.dag.task n)).status = .ok ∨ (v (s.dag.task n)).status = .fail)) ↔
    ∃ ms, JobBegan (exec (execCfg E.store s.dag tc) ms).trace n := by
  have hG := h.healthy tc hc hj ha
  have hwf := hG.wf
  have hra : ∀ a b, HasEdge (execCfg E.store s.dag tc).dag .requires a b →
      AfterEdge (execCfg E.store s.dag tc).dag a b := h.req
  obtain ⟨ms0, hfin0⟩ : ∃ ms, (exec (execCfg E.store s.dag tc) ms).phase = .finished := by
    obtain ⟨ms, hms⟩ := C11_no_deadlock _ hG [] (.inr rfl)
    exact ⟨_, hms⟩
  have hT := tinv_exec hwf ms0
  obtain ⟨hp, hrt, -⟩ := C02_one_record _ hwf ms0 hfin0
  obtain ⟨r, hr, hrn⟩ := List.mem_map.1 (hp.mem_iff.2 hn)
  have hvr := (C70_meaning E ts univ visit order filter s h tc ms0 hfin0).2.1 v hv r hr
  have hrt' : r.t = s.dag.task n := by rw [(hrt r hr).1, hrn]; rfl
  rw [hrt'] at hvr
  rw [hvr]
  have hst : r.verdict.status = r.status := rfl
  rw [hst]
  constructor
  · rintro ⟨-, hs⟩
    have := (began_of_status hT hr).1.2 hs
    rw [hrn] at this
    exact ⟨ms0, this⟩
  · intro hex
    exact ⟨h.sel hn, Executes.status hwf hra hex ms0 (by rw [hT.recs]; exact hr) hrn⟩

/-- events of tasks that have a node are events of nodes -/
theorem lift_word {f : Node → TaskId} {S : Node → Prop} {R : TaskId → Prop} (hS : ∀ t, R t → ∃ n, S n ∧ f n = t) :
    ∀ w : List JobEv, (∀ t, .begins t ∈ w ∨ .ends t ∈ w → R t) → ∃ u, u.map (JobEv.map f) = w ∧ Within S u := by
  intro w
  induction w with
  | nil => intro _; exact ⟨[], rfl, fun x hx => by cases hx⟩
  | cons x w ih =>
    intro hw
    obtain ⟨u, hu, hui⟩ := ih fun t ht => hw t (ht.imp (List.mem_cons_of_mem _) (List.mem_cons_of_mem _))
    obtain ⟨y, hy, hyi⟩ : ∃ y : JobEv, y.map f = x ∧ ∀ n, y = .begins n ∨ y = .ends n → S n := by
      cases x with
      | begins t =>
        obtain ⟨n, hn, rfl⟩ := hS t (hw t (.inl (by simp)))
        exact ⟨.begins n, rfl, by rintro m (e | e) <;> cases e; exact hn⟩
      | ends t =>
        obtain ⟨n, hn, rfl⟩ := hS t (hw t (.inr (by simp)))
        exact ⟨.ends n, rfl, by rintro m (e | e) <;> cases e; exact hn⟩
    refine ⟨y :: u, by rw [List.map_cons, hy, hu], ?_⟩
    intro z hz
    rcases List.mem_cons.1 hz with rfl | hz
    · exact hyi
    · exact hui z hz

/-- **C119**, said of tasks.  The selected tasks whose verdict is OK or FAIL (C70) are those that run.  If no
selected task ever has to wait for a thread or a resource, their jobs are entered and left, in an execution
that comes to its end, in exactly the ways that respect the declared orderings. -/
theorem C119_tasks (E : BEnv) (ts : TaskSet) (univ visit : List TaskId) (order : List TaskId → List TaskId)
    (filter : Str) (s : BSt) (h : Run E ts univ visit order filter s) (tc : Nat)
    (hc : ¬ OrderCycle E.store (Selected E.store ts filter))
    (hj : JobsOk E.store (Selected E.store ts filter))
    (ha : ∀ t, Selected E.store ts filter t → ∃ j a, (E.store t).job = some j ∧ j.isInvalidated = .answer a)
    (hU : UnhinderedTasks E.store (Selected E.store ts filter) tc) (v : TaskId → Verdict)
    (hv : Verdicts E.store (Selected E.store ts filter) v) (w : List JobEv) :
    (∃ ms, (exec (execCfg E.store s.dag tc) ms).phase = .finished ∧
      (jobWord (exec (execCfg E.store s.dag tc) ms).trace).map (JobEv.map s.dag.task) = w) ↔
    Interleaving (fun t => Selected E.store ts filter t ∧ ((v t).status = .ok ∨ (v t).status = .fail))
      (Relation.TransGen (OrderedAfter E.store (Selected E.store ts filter))) w ∧
    AllLeft (fun t => Selected E.store ts filter t ∧ ((v t).status = .ok ∨ (v t).status = .fail)) w := by
  classical
  have hG := h.healthy tc hc hj ha
  obtain ⟨fuel, hf1, hf2⟩ := h.built
  have hB := builtFresh h.env hf1 hf2
  have hwf := hG.wf
  have hra : ∀ a b, HasEdge (execCfg E.store s.dag tc).dag .requires a b →
      AfterEdge (execCfg E.store s.dag tc).dag a b := h.req
  have hinj : ∀ a b, a ∈ s.dag.nodes → b ∈ s.dag.nodes → s.dag.task a = s.dag.task b → a = b :=
    fun a b ha hb e => h.taskInj ha hb e
  have hmust : ∀ a b, a ∈ s.dag.nodes → b ∈ s.dag.nodes →
      (Relation.TransGen (OrderedAfter E.store (Selected E.store ts filter)) (s.dag.task a) (s.dag.task b) ↔
        Relation.TransGen (AfterEdge s.dag) a b) := fun a b ha hb =>
    ⟨fun h => hB.path h a ha b hb rfl rfl, fun h => hB.must h⟩
  have hruns := h.runs_iff tc hc hj ha v hv
  have hU' : Unhindered (execCfg E.store s.dag tc) := by
    refine ⟨hU.some, fun l hnd hl hu => ?_, fun a ha b hb hne h1 h2 => ?_⟩
    · have := hU.threads (l.map s.dag.task) ((List.nodup_map_iff_inj_on hnd).2
        fun x hx y hy e => hinj x y (hl x hx) (hl y hy) e)
        (by
          intro t ht
          obtain ⟨x, hx, rfl⟩ := List.mem_map.1 ht
          exact h.sel (hl x hx))
        (by
          intro t ht u hu' htu
          obtain ⟨x, hx, rfl⟩ := List.mem_map.1 ht
          obtain ⟨y, hy, rfl⟩ := List.mem_map.1 hu'
          exact hu x hx y hy ((hmust x y (hl x hx) (hl y hy)).1 htu))
      rw [List.length_map] at this
      exact this
    · exact hU.resources _ _ (h.sel ha) (h.sel hb) (fun e => hne (hinj a b ha hb e))
        (fun h => h1 ((hmust a b ha hb).1 h)) (fun h => h2 ((hmust b a hb ha).1 h))
  have hS : ∀ n, (∃ ms, JobBegan (exec (execCfg E.store s.dag tc) ms).trace n) → n ∈ s.dag.nodes :=
    fun n hn => Executes.node hwf hn
  have hS' : ∀ t, (Selected E.store ts filter t ∧ ((v t).status = .ok ∨ (v t).status = .fail)) →
      ∃ n, n ∈ s.dag.nodes ∧ s.dag.task n = t := fun t ht => h.node ht.1
  have hin : ∀ w, Interleaving (fun n => ∃ ms, JobBegan (exec (execCfg E.store s.dag tc) ms).trace n)
      (Relation.TransGen (AfterEdge s.dag)) w → Within (· ∈ s.dag.nodes) w := by
    intro w hw x hx n hn
    rcases hn with rfl | rfl
    · exact hS n (hw.which n hx)
    · obtain ⟨p, q, e⟩ := List.append_of_mem hx
      exact hS n (hw.which n (by rw [e]; exact List.mem_append_left _ (hw.ends p n q e)))
  have hwhole := C119_whole (execCfg E.store s.dag tc) hG hra hU'
  constructor
  · rintro ⟨ms, hfin, rfl⟩
    obtain ⟨h1, h2⟩ := (hwhole _).1 ⟨ms, hfin, rfl⟩
    have hwi := hin _ h1
    refine ⟨(interleaving_map hinj hruns hmust hS hS' hwi).2 h1, fun t ht => ?_⟩
    obtain ⟨n, hn, rfl⟩ := hS' t ht
    exact (within_ends hinj hwi hn).2 (h2 n ((hruns n hn).1 ht))
  · rintro ⟨h1, h2⟩
    obtain ⟨u, rfl, hui⟩ := lift_word hS' w fun t ht => by
      rcases ht with ht | ht
      · exact h1.which t ht
      · obtain ⟨p, q, e⟩ := List.append_of_mem ht
        exact h1.which t (by rw [e]; exact List.mem_append_left _ (h1.ends p t q e))
    obtain ⟨ms, hfin, e⟩ := (hwhole u).2 ⟨(interleaving_map hinj hruns hmust hS hS' hui).1 h1, fun n hn =>
      (within_ends hinj hui (hS n hn)).1 (h2 _ ((hruns n (hS n hn)).2 hn))⟩
    exact ⟨ms, hfin, by rw [e]⟩

theorem jobWord_filter (tr : List Event) : jobWord (tr.filter Event.isJob) = jobWord tr := by
  induction tr with
  | nil => rfl
  | cons e tr ih =>
    have : ∀ l, jobWord (e :: l) = jobWord [e] ++ jobWord l := fun l => jobWord_append [e] l
    rw [List.filter_cons]
    split
    · rw [this, ih, ← this]
    · rename_i h
      rw [this tr, ih]
      cases e <;> simp [Event.isJob, jobWord] at h ⊢

/-- what was entered and left so far is permitted if all is -/
theorem Interleaving.prefix {runs : Node → Prop} {must : Node → Node → Prop} {u v : List JobEv}
    (h : Interleaving runs must (u ++ v)) : Interleaving runs must u := by
  refine ⟨(List.nodup_append.1 h.once).1, fun n hn => h.which n (by simp [hn]), fun p n q e => ?_, fun p n q e => ?_⟩
  · exact h.order p n (q ++ v) (by rw [e]; simp)
  · exact h.ends p n (q ++ v) (by rw [e]; simp)

/-- **C119**, also when threads run between the single calls of the control thread. -/
theorem C119_fine (C : Cfg) (hG : Healthy C)
    (hra : ∀ a b, HasEdge C.dag .requires a b → AfterEdge C.dag a b) (hU : Unhindered C) (w : List JobEv) :
    (∃ fms, jobWord (fexec C fms).seen = w) ↔
      Interleaving (fun n => ∃ ms, JobBegan (exec C ms).trace n) (Relation.TransGen (AfterEdge C.dag)) w := by
  constructor
  · rintro ⟨fms, rfl⟩
    obtain ⟨ms, -, -, -, hj, -⟩ := C95_same C hG.wf fms
    have h := C119_only C hG.wf hra ms
    rw [← jobWord_filter, ← hj, jobWord_filter, jobWord_append] at h
    exact h.prefix
  · intro h
    obtain ⟨ms, -, h⟩ := C119_possible C hG hra hU w h
    obtain ⟨fms, hf⟩ := C95_every C hG.wf ms
    exact ⟨fms, by rw [hf]; exact h⟩

example : ∃ fms, jobWord (fexec Ex.fork fms).seen = Ex.forkWord :=
  (C119_fine Ex.fork Ex.fork_healthy (by
    intro a b h
    simp [HasEdge, Ex.fork] at h
    exact Ex.fork_edge.2 h) Ex.fork_unhindered _).2 Ex.fork_word

namespace Ex

/-- the task set of C70: of its four tasks, 10 and 13 are the ones whose jobs run -/
def ist : Store := kstore [] fresh

theorem irun : Run (kenv ist) tree [10, 11, 12, 13] [12, 11, 10, 13] List.reverse [] (kst ist) :=
  kbuilt_ok [] fresh (by decide +kernel)

theorem isel (t : TaskId) : Selected ist tree [] t ↔ t ∈ [10, 11, 12, 13] := by
  constructor
  · intro h
    obtain ⟨n, hn, rfl⟩ := irun.node h
    have : ∀ n ∈ (kst ist).dag.nodes, (kst ist).dag.task n ∈ [10, 11, 12, 13] := by decide +kernel
    exact this n hn
  · intro h
    have : ∀ t ∈ [10, 11, 12, 13], ∃ n ∈ (kst ist).dag.nodes, (kst ist).dag.task n = t := by decide +kernel
    obtain ⟨n, hn, rfl⟩ := this t h
    exact irun.sel hn

theorem iord {a b : TaskId} (h : OrderedAfter ist (Selected ist tree []) a b) : (a = 11 ∧ b = 10) ∨ (a = 13 ∧ b = 12) := by
  obtain ⟨ha, -, h⟩ := h
  rw [isel] at ha
  simp only [List.mem_cons, List.not_mem_nil, or_false] at ha
  rcases ha with rfl | rfl | rfl | rfl <;> simp [ist, kstore, ktask] at h <;> simp [h]

theorem ipath {a b : TaskId} (h : Relation.TransGen (OrderedAfter ist (Selected ist tree [])) a b) :
    (a = 11 ∧ b = 10) ∨ (a = 13 ∧ b = 12) := by
  induction h with
  | single h => exact iord h
  | tail _ h ih => rcases iord h with ⟨rfl, rfl⟩ | ⟨rfl, rfl⟩ <;> simp at ih

theorem iun : UnhinderedTasks ist (Selected ist tree []) 4 := by
  refine ⟨by decide, fun l hnd hl _ => ?_, fun a b ha hb _ _ _ r hr => ?_⟩
  · have := (hnd.subperm (l₂ := [10, 11, 12, 13]) fun a ha => (isel a).1 (hl a ha)).length_le
    simpa using this
  · rw [isel] at ha
    simp only [List.mem_cons, List.not_mem_nil, or_false] at ha
    rcases ha with rfl | rfl | rfl | rfl <;> simp [ist, kstore, ktask] at hr

end Ex

/-- the hypotheses of `C119_tasks` are met; the job of 13 can be entered before and left after that of 10 -/
example : ∃ ms, (exec (execCfg Ex.ist (Ex.kst Ex.ist).dag 4) ms).phase = .finished ∧
    (jobWord (exec (execCfg Ex.ist (Ex.kst Ex.ist).dag 4) ms).trace).map (JobEv.map (Ex.kst Ex.ist).dag.task) =
      [.begins 13, .begins 10, .ends 10, .ends 13] := by
  have hr := Ex.irun
  have hm := C70_meaning _ _ _ _ _ _ _ hr 0 (List.replicate 26 .ctl) (by decide +kernel)
  obtain ⟨v, hv⟩ := hm.2.2
  have hv1 := hm.2.1 v hv
  have hrec : ∀ t d, (t, d) ∈ [(12, (⟨.skip, 0, []⟩ : Verdict)), (13, ⟨.ok, 0, []⟩), (10, ⟨.fail, 3, []⟩), (11, ⟨.depf, 0, []⟩)] →
      v t = d := by
    intro t d htd
    have e : (Ex.kend [] Ex.fresh 26).erec.runs.map (fun r => (r.t, r.verdict)) =
      [(12, ⟨.skip, 0, []⟩), (13, ⟨.ok, 0, []⟩), (10, ⟨.fail, 3, []⟩), (11, ⟨.depf, 0, []⟩)] := by decide +kernel
    rw [← e] at htd
    obtain ⟨r, hr, he⟩ := List.mem_map.1 htd
    cases he
    exact hv1 r hr
  have h10 := hrec 10 _ (by simp; rfl)
  have h13 := hrec 13 _ (by simp; rfl)
  have h11 := hrec 11 _ (by simp; rfl)
  have h12 := hrec 12 _ (by simp; rfl)
  refine (C119_tasks _ _ _ _ _ _ _ hr 4 ?_ (Ex.kjobs _ _ _) ?_ Ex.iun v hv _).2 ⟨⟨by decide, ?_, ?_, ?_⟩, ?_⟩
  · rintro ⟨t, ht⟩
    rcases Ex.ipath ht with ⟨rfl, h⟩ | ⟨rfl, h⟩ <;> cases h
  · intro t ht
    have ht := (Ex.isel t).1 ht
    simp only [List.mem_cons, List.not_mem_nil, or_false] at ht
    rcases ht with rfl | rfl | rfl | rfl <;>
      simp [Ex.kenv, Ex.ist, Ex.kstore, Ex.ktask, Job.isInvalidated, Ex.fresh]
  · intro t ht
    simp only [List.mem_cons, JobEv.begins.injEq, reduceCtorEq, List.not_mem_nil, or_false] at ht
    rcases ht with rfl | rfl
    · exact ⟨(Ex.isel _).2 (by simp), .inl (by rw [h13])⟩
    · exact ⟨(Ex.isel _).2 (by simp), .inr (by rw [h10])⟩
  · intro p t q e u hu htu
    rcases Ex.ipath htu with ⟨rfl, rfl⟩ | ⟨rfl, rfl⟩
    · have : JobEv.begins 11 ∈ [JobEv.begins 13, .begins 10, .ends 10, .ends 13] := by rw [e]; simp
      simp at this
    · rcases hu.2 with h | h <;> rw [h12] at h <;> cases h
  · intro p t q e
    have : JobEv.ends t ∈ [JobEv.begins 13, .begins 10, .ends 10, .ends 13] := by rw [e]; simp
    rcases p with _ | ⟨x, _ | ⟨y, p⟩⟩
    · simp at e
    · simp at e
    · simp only [List.cons_append, List.cons.injEq] at e
      obtain ⟨rfl, rfl, -⟩ := e
      simp only [List.mem_cons, JobEv.ends.injEq, reduceCtorEq, List.not_mem_nil, or_false, false_or] at this
      rcases this with rfl | rfl <;> simp
  · rintro t ⟨ht, hst⟩
    have ht := (Ex.isel t).1 ht
    simp only [List.mem_cons, List.not_mem_nil, or_false] at ht
    rcases ht with rfl | rfl | rfl | rfl
    · simp
    · rw [h11] at hst; simp at hst
    · rw [h12] at hst; simp at hst
    · simp

end Joque
