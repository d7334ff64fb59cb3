import Verif.Props.PrintVisitor
import Verif.Props.Reports
import Verif.Props.Exec5
import Verif.Props.Exec3
import Verif.Spec.Messages

/-! # Diagnostics: run logs, warnings, the cycle report (C74) -/

namespace Joque

variable {C : Cfg}

/-- a text has one decomposition into lines -/
theorem TextLines.unique {s : Str} {a b : List Str} (ha : TextLines s a) (hb : TextLines s b) : a = b := by
  obtain ⟨h1, h2⟩ := ha
  obtain ⟨h3, h4⟩ := hb
  rw [h1] at h3
  clear h1
  induction a generalizing b with
  | nil =>
    cases b with
    | nil => rfl
    | cons y b => simp at h3
  | cons x a ih =>
    cases b with
    | nil => simp at h3
    | cons y b =>
      have hx := h2 x (by simp)
      have hy := h4 y (by simp)
      simp only [List.flatMap_cons, List.append_assoc, List.singleton_append] at h3
      have key : ∀ (x y r r' : Str), '\n' ∉ x → '\n' ∉ y → x ++ '\n' :: r = y ++ '\n' :: r' →
          x = y ∧ r = r' := by
        intro x
        induction x with
        | nil =>
          intro y r r' _ hy h
          cases y with
          | nil => simpa using h
          | cons d y =>
            simp only [List.nil_append, List.cons_append, List.cons.injEq] at h
            exact absurd (by rw [h.1]; simp) hy
        | cons c x ih =>
          intro y r r' hx hy h
          cases y with
          | nil =>
            simp only [List.nil_append, List.cons_append, List.cons.injEq] at h
            exact absurd (by rw [h.1]; simp) hx
          | cons d y =>
            simp only [List.cons_append, List.cons.injEq] at h
            obtain ⟨e1, e2⟩ := ih y r r' (fun hm => hx (by simp [hm])) (fun hm => hy (by simp [hm])) h.2
            exact ⟨by rw [h.1, e1], e2⟩
      obtain ⟨e1, e2⟩ := key _ _ _ _ hx hy h3
      rw [e1, ih (fun l hl => h2 l (by simp [hl])) e2 (fun l hl => h4 l (by simp [hl]))]

/-- **C74**, run logs.  `on_run_log` is called for a recorded task exactly once if its job was executed
and not otherwise; the text is the log the job returned, empty if it threw. -/
theorem C74_run_log (C : Cfg) (hwf : C.dag.WF) (ms : List Move) :
    (∀ n log, .runLog n log ∈ (exec C ms).trace → match C.outcome n with
      | .ret rr => log = rr.log
      | _ => log = []) ∧
    (∀ r ∈ recsOf (exec C ms).trace,
      (exec C ms).trace.countP (fun e => match e with | .runLog m _ => m = r.node | _ => false) =
        if r.status = .ok ∨ r.status = .fail then 1 else 0) := by
  have hT := tinv_exec hwf ms
  constructor
  · intro n log hm
    obtain ⟨pre, post, htr⟩ := List.append_of_mem hm
    obtain ⟨ms1, pre1, post1, _, h2, _⟩ := event_origin hwf ms htr
    have key : log = (asyncLambda (C.outcome n)).log := by
      generalize hev : pre1 ++ Event.runLog n log :: post1 = evs at h2
      have hmem : Event.runLog n log ∈ evs := by rw [← hev]; simp
      cases h2 with
      | none => simp at hmem
      | begin k => simp at hmem
      | «end» k => simp at hmem
      | ctl _ more p' h hpro =>
        have hmem' := List.mem_append_left more hmem
        generalize evs ++ more = l at h hmem'
        cases h with
        | none => simp at hmem'
        | prologue _ hp _ =>
          rcases hpro hp _ hmem with h | h
          · cases h
          · simp [proEv] at h
        | tick => simp at hmem'
        | resumed => simp at hmem'
        | afterExecution => simp at hmem'
        | notRun => simp at hmem'
        | launch => simp at hmem'
        | asyncFailed => simp at hmem'
        | deferredUb => simp at hmem'
        | deferred d sl rest log' r hp ht hl h0 hr hs hg =>
          simp at hmem'
          obtain ⟨rfl, rfl⟩ := hmem'
          exact hg
        | collect d sl rest log' r hp ht hl hw hr hs hg =>
          simp at hmem'
          obtain ⟨rfl, rfl⟩ := hmem'
          exact hg
    rw [key]
    cases C.outcome n <;> rfl
  · intro r hr
    have hl := hT.lifeRec r (by rw [← hT.recs]; exact hr)
    have hcount : ∀ l : List Event,
        l.countP (fun e => match e with | .runLog m _ => m = r.node | _ => false) =
          (life r.node l).count .log := by
      intro l
      induction l with
      | nil => rfl
      | cons e l ih =>
        rw [List.countP_cons, ih]
        cases e with
        | runLog m log =>
          by_cases hm : m = r.node
          · simp [life, tagOf, hm]
          · simp [life, tagOf, hm]
        | afterRun er r' n =>
          by_cases hm : r'.node = r.node <;> simp [life, tagOf, hm]
        | beforeRun er n =>
          by_cases hm : n = r.node <;> simp [life, tagOf, hm]
        | launch n =>
          by_cases hm : n = r.node <;> simp [life, tagOf, hm]
        | jobBegin n b =>
          by_cases hm : n = r.node <;> simp [life, tagOf, hm]
        | jobEnd n =>
          by_cases hm : n = r.node <;> simp [life, tagOf, hm]
        | _ => simp [life, List.filterMap_cons, tagOf]
    rw [hcount, hl]
    cases r.status <;> simp [recLife] <;> split <;> decide

/-- what one callback writes to `std::cerr` -/
def errOf (hasJob : Node → Bool) (T : TextEnv) : Event → Str
  | .nodeEnque n => if hasJob n then [] else noJobLine (T.name n) ++ ['\n']
  | .detectedCycle c => (cycleLines (c.map T.name)).flatMap (· ++ ['\n'])
  | _ => []

/-- the cycle a callback reports -/
def cycOf : Event → Option (List Node)
  | .detectedCycle c => some c
  | _ => none

theorem err_on (E : VisitEnv) (T : TextEnv) (v : Visitor) (e : Event) :
    stderrOf T (v.on E e).2 = errOf E.hasJob T e := by
  have hq : ∀ (l : List Item), (∀ i ∈ l, i.stderr T = []) → stderrOf T l = [] := fun l hl =>
    List.flatMap_eq_nil_iff.2 hl
  cases e with
  | nodeEnque n =>
    by_cases hj : E.hasJob n = true
    · rw [Visitor.on, errOf, if_pos hj, if_pos hj]; rfl
    · have e : " has no job\n".toList = " has no job".toList ++ ['\n'] := by decide +kernel
      rw [Visitor.on, errOf, if_neg hj, if_neg hj, stderrOf, List.flatMap_singleton, noJobLine]
      unfold Item.stderr
      rw [e]
      exact (List.append_assoc _ _ _).symm
  | detectedCycle c =>
    have e : "Cycle between nodes detected:\n".toList =
      "Cycle between nodes detected:".toList ++ ['\n'] := by decide +kernel
    rw [Visitor.on, stderrOf, List.flatMap_singleton, errOf, cycleLines, List.flatMap_cons,
      List.map_map, List.flatMap_map, ← e]
    unfold Item.stderr
    rfl
  | jobInval n i log =>
    refine hq _ fun x hx => ?_
    simp only [Visitor.on] at hx
    split at hx
    · rw [List.mem_singleton.1 hx]; rfl
    · cases hx
  | depInval n m =>
    refine hq _ fun x hx => ?_
    simp only [Visitor.on] at hx
    split at hx
    · rw [List.mem_singleton.1 hx]; rfl
    · cases hx
  | runLog n log =>
    refine hq _ fun x hx => ?_
    simp only [Visitor.on] at hx
    split at hx
    · rw [List.mem_singleton.1 hx]; rfl
    · cases hx
  | beforeRun er n =>
    refine hq _ fun x hx => ?_
    simp only [Visitor.on, Visitor.beforeRun] at hx
    split at hx
    · rw [List.mem_singleton.1 hx]; rfl
    · cases hx
  | afterRun er r n =>
    refine hq _ fun x hx => ?_
    simp only [Visitor.on, Visitor.afterRun] at hx
    rcases List.mem_append.1 hx with hx | hx
    · rcases List.mem_append.1 hx with hx | hx
      · split at hx
        · rw [List.mem_singleton.1 hx]; rfl
        · cases hx
      · split at hx
        · rw [List.mem_singleton.1 hx]; rfl
        · cases hx
    · split at hx
      · cases hx
      · rw [List.mem_singleton.1 hx]; rfl
  | afterExecution er => rfl
  | resumed => rfl
  | onTick er => rfl
  | launch n => rfl
  | jobBegin n b => rfl
  | jobEnd n => rfl

theorem err_onAll (E : VisitEnv) (T : TextEnv) (v : Visitor) (es : List Event) :
    stderrOf T (v.onAll E es).2 = es.flatMap (errOf E.hasJob T) := by
  induction es generalizing v with
  | nil => rfl
  | cons e es ih =>
    rw [Visitor.onAll, List.flatMap_cons, ← err_on E T v e, ← ih (v.on E e).1]
    exact List.flatMap_append

/-- **C74**, the error stream.  Once the execution has started (and no visitor throws), `std::cerr`
consists of one line for each node without a job, in the order of the dag, followed – iff there is a
cycle – by a heading and the names along a cycle, one per line.  Nothing else is ever written there. -/
theorem C74_stderr (C : Cfg) (hwf : C.dag.WF) (ms : List Move) (E : VisitEnv) (T : TextEnv) (v : Visitor)
    (hE : E.hasJob = C.hasJob) (hname : T.name = C.dag.name)
    (hnl : ∀ n ∈ C.dag.nodes, '\n' ∉ C.dag.name n)
    (hvis : ∀ f, .fault f ∉ ms) (hne : (exec C ms).trace ≠ []) :
    ∃ cyc, TextLines (stderrOf T (v.onAll E (exec C ms).trace).2)
        ((C.dag.nodes.filter (fun n => !C.hasJob n)).map (fun n => noJobLine (C.dag.name n)) ++ cyc) ∧
      (¬ Cyclic C.dag → cyc = []) ∧
      (Cyclic C.dag → ∃ c, IsCycle C.dag c ∧ cyc = cycleLines (c.map C.dag.name)) := by
  rw [err_onAll, hE]
  have hsplit : (exec C ms).trace.flatMap (errOf C.hasJob T) =
      ((C.dag.nodes.filter (fun n => !C.hasJob n)).map (fun n => noJobLine (C.dag.name n))).flatMap
        (· ++ ['\n']) ++
      ((exec C ms).trace.filterMap cycOf).flatMap (fun c => (cycleLines (c.map C.dag.name)).flatMap (· ++ ['\n'])) := by
    rcases C15_prologue C hwf ms with h | ⟨asked, mid, rest, h | ⟨⟨k, hk⟩, _⟩, _, _, hmid, hrest, _⟩
    · exact absurd h hne
    · rw [h]
      have h1 : ∀ l : List Event, (∀ e ∈ l, (∀ n, e ≠ .nodeEnque n) ∧ ∀ c, e ≠ .detectedCycle c) →
          l.flatMap (errOf C.hasJob T) = [] ∧ l.filterMap cycOf = [] := by
        intro l hl
        refine ⟨List.flatMap_eq_nil_iff.2 fun e he => ?_, List.filterMap_eq_nil_iff.2 fun e he => ?_⟩
        · obtain ⟨g1, g2⟩ := hl e he
          cases e with
          | nodeEnque n => exact absurd rfl (g1 n)
          | detectedCycle c => exact absurd rfl (g2 c)
          | _ => rfl
        · obtain ⟨g1, g2⟩ := hl e he
          cases e with
          | detectedCycle c => exact absurd rfl (g2 c)
          | _ => rfl
      have h2 : ∀ l : List Node, (l.map Event.nodeEnque).flatMap (errOf C.hasJob T) =
          ((l.filter (fun n => !C.hasJob n)).map (fun n => noJobLine (C.dag.name n))).flatMap
            (· ++ ['\n']) ∧ (l.map Event.nodeEnque).filterMap cycOf = [] := by
        intro l
        induction l with
        | nil => exact ⟨rfl, rfl⟩
        | cons n l ih =>
          refine ⟨?_, ?_⟩
          · rw [List.map_cons, List.flatMap_cons, ih.1, errOf]
            cases hj : C.hasJob n with
            | true => rw [List.filter_cons_of_neg (by simp [hj])]; rfl
            | false =>
              rw [List.filter_cons_of_pos (by simp [hj]), List.map_cons, List.flatMap_cons, hname]
              rfl
          · rw [List.map_cons, List.filterMap_cons]; exact ih.2
      have h3 : mid.flatMap (errOf C.hasJob T) = (mid.filterMap cycOf).flatMap
          (fun c => (cycleLines (c.map C.dag.name)).flatMap (· ++ ['\n'])) := by
        clear h
        induction mid with
        | nil => rfl
        | cons e mid ih =>
          have ih' := ih (fun e he => hmid e (by simp [he]))
          rcases hmid e (by simp) with ⟨c, rfl⟩ | ⟨n, m, rfl⟩
          · rw [List.flatMap_cons, ih', errOf, hname]; rfl
          · rw [List.flatMap_cons, ih']; rfl
      obtain ⟨a1, a2⟩ := h1 (asked.map (fun p =>
          Event.jobInval p.1 (if p.2.invalidated then .invalid else .valid) p.2.log)) (by
        intro e he
        obtain ⟨p, _, rfl⟩ := List.mem_map.1 he
        exact ⟨fun n => Event.noConfusion, fun c => Event.noConfusion⟩)
      obtain ⟨b1, b2⟩ := h1 rest (fun e he => ⟨(hrest e he).1, (hrest e he).2.1⟩)
      obtain ⟨c1, c2⟩ := h1 [.resumed] (by simp)
      obtain ⟨d1, d2⟩ := h2 C.dag.nodes
      rw [List.cons_append, List.cons_append, List.cons_append, ← List.singleton_append]
      simp only [List.flatMap_append, List.filterMap_append, a1, a2, b1, b2, c1, c2, d1, d2, h3,
        List.nil_append, List.append_nil]
    · exact absurd hk (hvis k)
  rw [hsplit]
  have hjl : ∀ l ∈ (C.dag.nodes.filter (fun n => !C.hasJob n)).map (fun n => noJobLine (C.dag.name n)),
      '\n' ∉ l := by
    intro l hl
    obtain ⟨n, hn, rfl⟩ := List.mem_map.1 hl
    have := hnl n (List.mem_filter.1 hn).1
    unfold noJobLine
    simp only [List.mem_append, not_or]
    exact ⟨⟨by decide +kernel, this⟩, by decide +kernel⟩
  obtain ⟨hnc, hc⟩ := C10_reported_cycle C hwf ms
  have hcyc : ∀ l : List Event, l.filterMap cycOf = l.filterMap (fun e => match e with
      | Event.detectedCycle c => some c
      | _ => none) := fun l => List.filterMap_congr fun e _ => by cases e <;> rfl
  have hnc' : ¬ Cyclic C.dag → (exec C ms).trace.filterMap cycOf = [] := fun h =>
    (hcyc _).trans (hnc h)
  have hc' : Cyclic C.dag → (exec C ms).trace ≠ [] →
      (∃ c, (exec C ms).trace.filterMap cycOf = [c] ∧ IsCycle C.dag c) ∨ ∃ f, .fault f ∈ ms := by
    intro h1 h2
    rcases hc h1 h2 with ⟨c, h3, h4⟩ | ⟨_, h3⟩
    · exact .inl ⟨c, (hcyc _).trans h3, h4⟩
    · exact .inr h3
  rcases Classical.em (Cyclic C.dag) with hcy | hcy
  · rcases hc' hcy hne with ⟨c, hc, hcyc⟩ | ⟨k, hk⟩
    · rw [hc]
      refine ⟨cycleLines (c.map C.dag.name), ⟨?_, ?_⟩, fun h => absurd hcy h, fun _ => ⟨c, hcyc, rfl⟩⟩
      · rw [List.flatMap_append, List.flatMap_singleton]
      · intro l hl
        rcases List.mem_append.1 hl with hl | hl
        · exact hjl l hl
        · rcases List.mem_cons.1 hl with rfl | hl
          · decide +kernel
          · rw [List.map_map] at hl
            obtain ⟨n, hn, rfl⟩ := List.mem_map.1 hl
            have hnn : n ∈ C.dag.nodes := by
              obtain ⟨i, hi, rfl⟩ := List.getElem_of_mem hn
              exact (hwf.closed _ (hcyc.2.2 i hi)).1
            have := hnl n hnn
            simp only [Function.comp_apply, List.mem_cons, not_or]
            exact ⟨by decide, this⟩
    · exact absurd hk (hvis k)
  · rw [hnc' hcy]
    exact ⟨[], ⟨by simp, by simpa using hjl⟩, fun _ => rfl, fun h => absurd h hcy⟩

theorem stdout_infix {T : TextEnv} {hms : Str} {i : Item} {a : Str} :
    ∀ {its : List (Str × Item)} {s : Str}, stdoutOf T its = some s → (hms, i) ∈ its →
      i.stdout T hms = some a → a <:+: s := by
  intro its
  induction its with
  | nil => intro s _ h; cases h
  | cons p its ih =>
    intro s hs hm ha
    obtain ⟨hms', i'⟩ := p
    rw [stdoutOf] at hs
    obtain ⟨b, hb, hs⟩ := Option.bind_eq_some_iff.1 hs
    obtain ⟨s', hs', rfl⟩ := Option.map_eq_some_iff.1 hs
    rcases List.mem_cons.1 hm with h | h
    · cases h
      rw [ha] at hb
      cases hb
      exact (List.prefix_append _ _).isInfix
    · exact (ih hs' h ha).trans (List.suffix_append _ _).isInfix

/-- **C74**, the verbose output contains: for every executed job that returned, its log, under the name
of the task; for every task whose own job says it is out of date, the explanation; for every task that
is out of date only because of others, one that is a true reason. -/
theorem C74_verbose (C : Cfg) (hwf : C.dag.WF) (ms : List Move) (E : VisitEnv) (T : TextEnv)
    (hname : T.name = C.dag.name) (its : List (Str × Item)) (s : Str)
    (hits : its.map Prod.snd = ((Visitor.init true).onAll E (exec C ms).trace).2)
    (hs : stdoutOf T its = some s) :
    (∀ r ∈ recsOf (exec C ms).trace, r.status = .ok ∨ r.status = .fail →
      ∀ rr, C.outcome r.node = .ret rr →
        "Job ".toList ++ C.dag.name r.node ++ " run log: \n".toList ++ rr.log ++ ['\n'] <:+: s) ∧
    (∀ n log, .jobInval n .invalid log ∈ (exec C ms).trace →
      "Job ".toList ++ C.dag.name n ++ " got invalidated: \n".toList ++ log ++ ['\n'] <:+: s) ∧
    (∀ n m, .depInval n m ∈ (exec C ms).trace →
      "Task ".toList ++ C.dag.name n ++ " invalidated by ".toList ++ C.dag.name m ++ ['\n'] <:+: s) ∧
    (∀ n m, .invalidatedBy n m ∈ its.map Prod.snd →
      HasEdge C.dag .invalidatedBy n m ∧ Stale C.dag C.ask m ∧ ¬ SelfStale C.ask n) := by
  have hshow : ∀ (e : Event) (i : Item), e ∈ (exec C ms).trace →
      (∀ v : Visitor, v.verbose = true → i ∈ (v.on E e).2) → ∃ hms, (hms, i) ∈ its := by
    intro e i he hi
    obtain ⟨pre, post, htr⟩ := List.append_of_mem he
    have : i ∈ ((Visitor.init true).onAll E (exec C ms).trace).2 := by
      rw [htr]
      exact item_of_split (hi _ (onAll_verbose E _ pre))
    rw [← hits] at this
    obtain ⟨⟨hms, i'⟩, hm, rfl⟩ := List.mem_map.1 this
    exact ⟨hms, hm⟩
  refine ⟨?_, ?_, ?_, ?_⟩
  · intro r hr hst rr hrr
    obtain ⟨h1, h2⟩ := C74_run_log C hwf ms
    have hc := h2 r hr
    rw [if_pos hst] at hc
    have hpos : 0 < (exec C ms).trace.countP
        (fun e => match e with | .runLog m _ => m = r.node | _ => false) := by rw [hc]; exact Nat.one_pos
    obtain ⟨e, he, hm⟩ := List.countP_pos_iff.1 hpos
    cases e with
    | runLog m log =>
      have hm' : m = r.node := by simpa using hm
      subst hm'
      have hlog := h1 _ _ he
      rw [hrr] at hlog
      dsimp only at hlog
      subst hlog
      obtain ⟨hms, hi⟩ := hshow _ (.runLog r.node rr.log) he (fun v hv => by
        show _ ∈ (if v.verbose then [Item.runLog r.node rr.log] else [])
        rw [if_pos hv]; exact List.mem_singleton_self _)
      refine stdout_infix hs hi ?_
      rw [← hname]; rfl
    | _ => cases hm
  · intro n log he
    obtain ⟨hms, hi⟩ := hshow _ (.invalidated n log) he (fun v hv => by
      show _ ∈ (if v.verbose && decide (Inval.invalid = .invalid) then [Item.invalidated n log] else [])
      rw [if_pos (by rw [hv]; rfl)]; exact List.mem_singleton_self _)
    refine stdout_infix hs hi ?_
    rw [← hname]; rfl
  · intro n m he
    obtain ⟨hms, hi⟩ := hshow _ (.invalidatedBy n m) he (fun v hv => by
      show _ ∈ (if v.verbose then [Item.invalidatedBy n m] else [])
      rw [if_pos hv]; exact List.mem_singleton_self _)
    refine stdout_infix hs hi ?_
    rw [← hname]; rfl
  · intro n m hi
    rw [hits] at hi
    obtain ⟨pre, e, post, htr, he⟩ := item_split hi
    have hmem : e ∈ (exec C ms).trace := by rw [htr]; simp
    have : e = .depInval n m := by
      cases e with
      | depInval n' m' =>
        simp only [Visitor.on] at he
        split at he
        · cases List.mem_singleton.1 he; rfl
        · cases he
      | nodeEnque n' =>
        simp only [Visitor.on] at he
        split at he
        · cases he
        · cases List.mem_singleton.1 he
      | jobInval n' i' log' =>
        simp only [Visitor.on] at he
        split at he
        · cases List.mem_singleton.1 he
        · cases he
      | runLog n' log' =>
        simp only [Visitor.on] at he
        split at he
        · cases List.mem_singleton.1 he
        · cases he
      | beforeRun er n' =>
        simp only [Visitor.on, Visitor.beforeRun] at he
        split at he
        · cases List.mem_singleton.1 he
        · cases he
      | afterRun er r n' =>
        simp only [Visitor.on, Visitor.afterRun] at he
        rcases List.mem_append.1 he with he | he
        · rcases List.mem_append.1 he with he | he
          · split at he
            · cases List.mem_singleton.1 he
            · cases he
          · split at he
            · cases List.mem_singleton.1 he
            · cases he
        · split at he
          · cases he
          · cases List.mem_singleton.1 he
      | detectedCycle c => cases List.mem_singleton.1 he
      | afterExecution er => cases List.mem_singleton.1 he
      | resumed => cases he
      | onTick er => cases he
      | launch n' => cases he
      | jobBegin n' b => cases he
      | jobEnd n' => cases he
    exact (C66_true C hwf ms n m).1 (this ▸ hmem)

namespace Ex

/-- a cycle between 1, 3 and 2; node 4 has no job -/
def mcfg : Cfg := { cyc with hasJob := fun n => n ≠ 4
                             dag := { cyc.dag with name := fun n => Nat.toDigits 10 n } }

/-- names and jobs of `C` -/
def mtext (C : Cfg) : TextEnv := { name := C.dag.name, shown := fun _ => [], clock := fun i => i }

end Ex

example : stderrOf (Ex.mtext Ex.mcfg)
    ((Visitor.init false).onAll (noneHidden Ex.mcfg) (exec Ex.mcfg [.ctl]).trace).2 =
    "Task 4 has no job\nCycle between nodes detected:\n\t1\n\t3\n\t2\n".toList := by decide +kernel

/-- task 1 throws, the others return a log -/
def Ex.mlog : Cfg :=
  { Ex.cfg 0 with
    outcome := fun n => if n = 1 then JobOut.throwsOther
      else JobOut.ret { retcode := some 0, output := [], log := "log".toList } }

/-- the logs reported -/
def Ex.mlogs (tr : List Event) : List (Node × Str) :=
  tr.filterMap fun e => match e with
    | .runLog n log => some (n, log)
    | _ => none

example : Ex.mlogs (exec Ex.mlog (List.replicate 60 .ctl)).trace =
    [(1, []), (4, "log".toList), (2, "log".toList)] := by decide +kernel

end Joque
