import Verif.Spec.Session
import Verif.Props.PrintVisitor
import Verif.Props.RefInv
import Verif.Props.Reports

/-! # C76: one visitor for several executions -/

namespace Joque

/-- the visitor after the calls, whatever it read -/
def Visitor.after (v : Visitor) (cs : List VCall) : Visitor := cs.foldl (fun v c => (v.on c.env c.ev).1) v

theorem after_snoc (v : Visitor) (cs : List VCall) (c : VCall) :
    v.after (cs ++ [c]) = ((v.after cs).on c.env c.ev).1 := by
  simp [Visitor.after]

theorem calls_some {v : Visitor} {cs : List VCall}
    (h : ∀ pre c post, cs = pre ++ c :: post →
      ∀ i ∈ ((v.after pre).on c.env c.ev).2, ∀ n ∈ i.names, c.alive n = true) :
    ∃ items, v.calls cs = some (v.after cs, items) := by
  induction cs generalizing v with
  | nil => exact ⟨[], rfl⟩
  | cons c cs ih =>
    obtain ⟨items, hi⟩ := ih (v := (v.on c.env c.ev).1) (by
      rintro pre d post rfl
      exact h (c :: pre) d post rfl)
    refine ⟨(v.on c.env c.ev).2 ++ items, ?_⟩
    rw [Visitor.calls]
    rw [if_pos, hi]
    · rfl
    · rw [List.all_eq_true]
      intro i hi
      rw [List.all_eq_true]
      exact h [] c cs rfl i hi

theorem calls_none {v : Visitor} {pre post : List VCall} {c : VCall} {i : Item} {n : Node}
    (hi : i ∈ ((v.after pre).on c.env c.ev).2) (hn : n ∈ i.names) (hd : c.alive n = false) :
    v.calls (pre ++ c :: post) = none := by
  induction pre generalizing v with
  | nil =>
    rw [List.nil_append, Visitor.calls]
    rw [if_neg]
    intro h
    rw [List.all_eq_true] at h
    have := List.all_eq_true.1 (h i hi) n hn
    rw [hd] at this
    cases this
  | cons d pre ih =>
    rw [List.cons_append, Visitor.calls]
    split
    · rw [ih (v := (v.on d.env d.ev).1) hi]; rfl
    · rfl

theorem calls_append (v : Visitor) (a b : List VCall) :
    v.calls (a ++ b) = (v.calls a).bind fun p => (p.1.calls b).map fun q => (q.1, p.2 ++ q.2) := by
  induction a generalizing v with
  | nil => cases h : v.calls b <;> simp [Visitor.calls, h]
  | cons c a ih =>
    rw [List.cons_append, Visitor.calls, Visitor.calls]
    split
    · rw [ih]
      cases (v.on c.env c.ev).1.calls a with
      | none => rfl
      | some p =>
        simp only [Option.bind_some, Option.map_some, Option.map_map]
        congr 1
        funext q
        simp
    · rfl

/-- what an item reads was passed by the call or is still queued -/
theorem on_names {E : VisitEnv} {v : Visitor} {e : Event} {i : Item} {n : Node}
    (hi : i ∈ (v.on E e).2) (hn : n ∈ i.names) :
    n ∈ e.about ∨ n ∈ (v.on E e).1.queued := by
  cases e with
  | nodeEnque m =>
    replace hi : i ∈ (if E.hasJob m then [] else [Item.noJob m]) := hi
    split at hi
    · cases hi
    · rw [List.mem_singleton] at hi; subst hi; exact .inl hn
  | detectedCycle c =>
    replace hi : i ∈ [Item.cycle c] := hi
    rw [List.mem_singleton] at hi; subst hi; exact .inl hn
  | jobInval m k log =>
    replace hi : i ∈ (if v.verbose && k = .invalid then [Item.invalidated m log] else []) := hi
    split at hi
    · rw [List.mem_singleton] at hi; subst hi; exact .inl hn
    · cases hi
  | depInval m k =>
    replace hi : i ∈ (if v.verbose then [Item.invalidatedBy m k] else []) := hi
    split at hi
    · rw [List.mem_singleton] at hi; subst hi; exact .inl hn
    · cases hi
  | runLog m log =>
    replace hi : i ∈ (if v.verbose then [Item.runLog m log] else []) := hi
    split at hi
    · rw [List.mem_singleton] at hi; subst hi; exact .inl hn
    · cases hi
  | beforeRun er m =>
    replace hi : i ∈ (v.beforeRun E er m).2 := hi
    unfold Visitor.beforeRun at hi
    split at hi
    · rw [List.mem_singleton] at hi; subst hi; exact .inl hn
    · cases hi
  | afterRun er r m =>
    replace hi : i ∈ (v.afterRun E er r m).2 := hi
    unfold Visitor.afterRun at hi
    simp only at hi
    right
    show n ∈ v.queued.filter (· ≠ m)
    rcases List.mem_append.1 hi with hi | hi
    · exfalso
      rcases List.mem_append.1 hi with hi | hi <;> split at hi
      · rw [List.mem_singleton] at hi; subst hi; cases hn
      · cases hi
      · rw [List.mem_singleton] at hi; subst hi; cases hn
      · cases hi
    · generalize v.queued.filter (· ≠ m) = q at hi ⊢
      cases q with
      | nil => cases hi
      | cons a q =>
        rw [List.mem_singleton] at hi
        subst hi
        rw [Item.names, List.mem_singleton] at hn
        subst hn
        exact List.mem_cons_self
  | afterExecution er =>
    replace hi : i ∈ [Item.summary er] := hi
    rw [List.mem_singleton] at hi; subst hi; cases hn
  | _ => cases hi

/-- how the queue changes -/
theorem queued_step {E : VisitEnv} {v : Visitor} {e : Event} {n : Node}
    (h : n ∈ (v.on E e).1.queued) : (∃ er, e = .beforeRun er n) ∨
      (n ∈ v.queued ∧ (∀ er r, e ≠ .afterRun er r n) ∧ ∀ er, e ≠ .afterExecution er) := by
  cases e with
  | beforeRun er m =>
    replace h : n ∈ (v.beforeRun E er m).1.queued := h
    unfold Visitor.beforeRun at h
    split at h
    · rcases mem_setInsert.1 h with rfl | h
      · exact .inl ⟨er, rfl⟩
      · exact .inr ⟨h, fun _ _ h => (by cases h), fun _ h => (by cases h)⟩
    · exact .inr ⟨h, fun _ _ h => (by cases h), fun _ h => (by cases h)⟩
  | afterRun er r m =>
    replace h : n ∈ v.queued.filter (· ≠ m) := h
    rw [List.mem_filter] at h
    refine .inr ⟨h.1, ?_, fun _ h => by cases h⟩
    intro er' r' he
    cases he
    simpa using h.2
  | afterExecution er => cases h
  | nodeEnque m => exact .inr ⟨h, fun _ _ h => (by cases h), fun _ h => (by cases h)⟩
  | detectedCycle c => exact .inr ⟨h, fun _ _ h => (by cases h), fun _ h => (by cases h)⟩
  | jobInval m k log => exact .inr ⟨h, fun _ _ h => (by cases h), fun _ h => (by cases h)⟩
  | depInval m k => exact .inr ⟨h, fun _ _ h => (by cases h), fun _ h => (by cases h)⟩
  | runLog m log => exact .inr ⟨h, fun _ _ h => (by cases h), fun _ h => (by cases h)⟩
  | resumed => exact .inr ⟨h, fun _ _ h => (by cases h), fun _ h => (by cases h)⟩
  | onTick er => exact .inr ⟨h, fun _ _ h => (by cases h), fun _ h => (by cases h)⟩
  | launch m => exact .inr ⟨h, fun _ _ h => (by cases h), fun _ h => (by cases h)⟩
  | jobBegin m b => exact .inr ⟨h, fun _ _ h => (by cases h), fun _ h => (by cases h)⟩
  | jobEnd m => exact .inr ⟨h, fun _ _ h => (by cases h), fun _ h => (by cases h)⟩

theorem after_queued {v : Visitor} {cs : List VCall} {n : Node} (h : n ∈ (v.after cs).queued) :
    OpenAt (cs.map VCall.ev) n ∨ (n ∈ v.queued ∧ (∀ er r, .afterRun er r n ∉ cs.map VCall.ev) ∧
      ∀ er, .afterExecution er ∉ cs.map VCall.ev) := by
  induction cs using List.reverseRecOn with
  | nil => exact .inr ⟨h, by simp, by simp⟩
  | append_singleton cs c ih =>
    rw [after_snoc] at h
    rw [List.map_append, List.map_singleton]
    rcases queued_step h with ⟨er, he⟩ | ⟨h, h1, h2⟩
    · exact .inl ⟨cs.map VCall.ev, er, [], by rw [he], by simp, by simp⟩
    · rcases ih h with ⟨a, er, b, hab, h3, h4⟩ | ⟨h3, h4, h5⟩
      · refine .inl ⟨a, er, b ++ [c.ev], by rw [hab]; simp, ?_, ?_⟩
        · intro er r hm
          rcases List.mem_append.1 hm with hm | hm
          · exact h3 er r hm
          · exact h1 er r (List.mem_singleton.1 hm).symm
        · intro er hm
          rcases List.mem_append.1 hm with hm | hm
          · exact h4 er hm
          · exact h2 er (List.mem_singleton.1 hm).symm
      · refine .inr ⟨h3, ?_, ?_⟩
        · intro er r hm
          rcases List.mem_append.1 hm with hm | hm
          · exact h4 er r hm
          · exact h1 er r (List.mem_singleton.1 hm).symm
        · intro er hm
          rcases List.mem_append.1 hm with hm | hm
          · exact h5 er hm
          · exact h2 er (List.mem_singleton.1 hm).symm

/-- **C76** (partial).  Executions may use one visitor, one after the other or in turns, if none of them
is destroyed while the visitor still waits for the end of one of its tasks: then the visitor only reads
nodes that exist.  (Full statement: without the second hypothesis; false, see `C76_counterexample`.) -/
theorem C76_partial (verbose : Bool) (cs : List VCall)
    (own : ∀ c ∈ cs, ∀ n ∈ c.ev.about, c.alive n = true)
    (kept : ∀ pre c post, cs = pre ++ c :: post → ∀ n, OpenAt (pre.map VCall.ev) n → c.alive n = true) :
    (Visitor.init verbose).calls cs ≠ none := by
  obtain ⟨items, h⟩ := calls_some (v := Visitor.init verbose) (cs := cs) (by
    intro pre c post heq i hi n hn
    rcases on_names hi hn with h | h
    · exact own c (by rw [heq]; simp) n h
    · rcases queued_step h with ⟨er, he⟩ | ⟨h, _⟩
      · exact own c (by rw [heq]; simp) n (by rw [he]; simp [Event.about])
      · rcases after_queued h with h | ⟨h, _⟩
        · exact kept pre c post heq n h
        · cases h)
  rw [h]
  exact fun h => by cases h

/-- every call of an execution passes nodes of its dag -/
theorem about_nodes (C : Cfg) (hwf : C.dag.WF) (ms : List Move) {e : Event} {n : Node}
    (he : e ∈ (exec C ms).trace) (hn : n ∈ e.about) : n ∈ C.dag.nodes := by
  have hT := tinv_exec hwf ms
  have hbefore : ∀ er m, .beforeRun er m ∈ (exec C ms).trace → m ∈ C.dag.nodes := by
    intro er m h
    obtain ⟨p, q, hpq⟩ := List.append_of_mem h
    exact (hT.always p _ q hpq).2.1
  have hpro := C15_prologue C hwf ms
  cases e with
  | nodeEnque m =>
    rw [Event.about, List.mem_singleton] at hn
    subst hn
    rcases hpro with h | ⟨asked, mid, rest, h, _, _, h3, h4, _⟩
    · rw [h] at he; cases he
    · have hmem : Event.nodeEnque n ∈ .resumed :: C.dag.nodes.map Event.nodeEnque ++
          asked.map (fun p =>
            Event.jobInval p.1 (if p.2.invalidated then .invalid else .valid) p.2.log) ++ mid ++ rest := by
        rcases h with h | ⟨_, _, h⟩
        · rw [← h]; exact he
        · exact List.mem_append_left _ (h.subset he)
      simp only [List.mem_append, List.mem_cons, List.mem_map] at hmem
      rcases hmem with ((((h | ⟨x, hx, h⟩) | ⟨x, hx, h⟩) | h) | h)
      · cases h
      · cases h; exact hx
      · cases h
      · rcases h3 _ h with ⟨c, h⟩ | ⟨a, b, h⟩ <;> cases h
      · exact absurd rfl ((h4 _ h).1 n)
  | jobInval m k log =>
    rw [Event.about, List.mem_singleton] at hn
    subst hn
    rcases hpro with h | ⟨asked, mid, rest, h, _, h2, h3, h4, _⟩
    · rw [h] at he; cases he
    · have hmem : Event.jobInval n k log ∈ .resumed :: C.dag.nodes.map Event.nodeEnque ++
          asked.map (fun p =>
            Event.jobInval p.1 (if p.2.invalidated then .invalid else .valid) p.2.log) ++ mid ++ rest := by
        rcases h with h | ⟨_, _, h⟩
        · rw [← h]; exact he
        · exact List.mem_append_left _ (h.subset he)
      simp only [List.mem_append, List.mem_cons, List.mem_map] at hmem
      rcases hmem with ((((h | ⟨x, hx, h⟩) | ⟨x, hx, h⟩) | h) | h)
      · cases h
      · cases h
      · injection h with h; rw [← h]; exact (h2 x hx).1
      · rcases h3 _ h with ⟨c, h⟩ | ⟨a, b, h⟩ <;> cases h
      · exact absurd rfl ((h4 _ h).2.2.1 n k log)
  | detectedCycle c =>
    have hne : (exec C ms).trace ≠ [] := by
      intro h; rw [h] at he; cases he
    obtain ⟨h1, h2⟩ := C10_reported_cycle C hwf ms
    generalize hrep : List.filterMap _ (exec C ms).trace = rep at h1 h2
    have hm : c ∈ rep := by rw [← hrep]; exact List.mem_filterMap.2 ⟨_, he, rfl⟩
    rcases Classical.em (Cyclic C.dag) with hcy | hcy
    · rcases h2 hcy hne with ⟨c', hc, hcyc⟩ | ⟨h, _⟩
      · rw [hc, List.mem_singleton] at hm
        subst hm
        obtain ⟨i, hi, rfl⟩ := List.getElem_of_mem (show n ∈ c from hn)
        exact (hwf.closed _ (hcyc.2.2 i hi)).1
      · rw [h] at hm; cases hm
    · rw [h1 hcy] at hm; cases hm
  | depInval m k =>
    obtain ⟨h, _⟩ := C66_true C hwf ms m k
    have := hwf.closed _ (h he).1
    simp only [Event.about, List.mem_cons, List.not_mem_nil, or_false] at hn
    rcases hn with rfl | rfl
    · exact this.1
    · exact this.2
  | beforeRun er m =>
    rw [Event.about, List.mem_singleton] at hn
    subst hn
    exact hbefore er n he
  | runLog m log =>
    rw [Event.about, List.mem_singleton] at hn
    subst hn
    have hlog : Tag.log ∈ life n (exec C ms).trace :=
      List.mem_filterMap.2 ⟨_, he, by simp [tagOf]⟩
    have hb : Tag.before ∈ life n (exec C ms).trace := by
      have key : ∀ l : List Tag, l.head? = some .before →
          life n (exec C ms).trace <+: l → Tag.before ∈ life n (exec C ms).trace := by
        intro l hl hp
        generalize life n (exec C ms).trace = t at *
        obtain ⟨r, rfl⟩ := hp
        cases t with
        | nil => cases hlog
        | cons a t => simp at hl; subst hl; exact List.mem_cons_self
      rcases C15_node_history C hwf ms n with h | ⟨_, h⟩ | ⟨_, h⟩ <;> exact key _ rfl h
    obtain ⟨e', he', ht⟩ := List.mem_filterMap.1 hb
    have : ∃ er, e' = .beforeRun er n := by
      cases e' <;> simp only [tagOf] at ht <;> first | cases ht | (split at ht <;> first | cases ht | skip)
      rename_i er m hm
      exact ⟨er, by rw [hm]⟩
    obtain ⟨er, rfl⟩ := this
    exact hbefore er n he'
  | afterRun er r m =>
    rw [Event.about, List.mem_singleton] at hn
    subst hn
    exact C16_real C hwf ms he
  | _ => cases hn


theorem after_eq (v : Visitor) (E : VisitEnv) (al : Node → Bool) (tr : List Event) :
    v.after (tr.map fun e => { env := E, alive := al, ev := e }) = (v.onAll E tr).1 := by
  induction tr generalizing v with
  | nil => rfl
  | cons e tr ih => rw [Visitor.onAll]; exact ih _

theorem calls_items {v : Visitor} {E : VisitEnv} {al : Node → Bool} {tr : List Event} {p}
    (h : v.calls (tr.map fun e => { env := E, alive := al, ev := e }) = some p) :
    p = v.onAll E tr := by
  induction tr generalizing v p with
  | nil => cases h; rfl
  | cons e tr ih =>
    rw [List.map_cons, Visitor.calls] at h
    split at h
    · obtain ⟨q, hq, rfl⟩ := Option.map_eq_some_iff.1 h
      have := ih hq
      subst this
      rfl
    · cases h

theorem calls_exec (C : Cfg) (hwf : C.dag.WF) (ms : List Move) (E : VisitEnv) (verbose : Bool) :
    (Visitor.init verbose).calls (callsOf C ms E) =
      some ((Visitor.init verbose).onAll E (exec C ms).trace) := by
  have hne := C76_partial verbose (callsOf C ms E) (by
    intro c hc n hn
    obtain ⟨e, he, rfl⟩ := List.mem_map.1 hc
    exact decide_eq_true (about_nodes C hwf ms he hn)) (by
    rintro pre c post heq n ⟨a, er, b, hab, -, -⟩
    have hc : c ∈ callsOf C ms E := by rw [heq]; simp
    obtain ⟨e, he, rfl⟩ := List.mem_map.1 hc
    refine decide_eq_true ?_
    have hb : Event.beforeRun er n ∈ (callsOf C ms E).map VCall.ev := by
      rw [heq, List.map_append, hab]; simp
    rw [callsOf, List.map_map] at hb
    obtain ⟨e', he', h'⟩ := List.mem_map.1 hb
    replace h' : e' = .beforeRun er n := h'
    subst h'
    exact about_nodes C hwf ms he' (by simp [Event.about]))
  cases h : (Visitor.init verbose).calls (callsOf C ms E) with
  | none => exact absurd h hne
  | some p => rw [calls_items h]

theorem clean_init {C : Cfg} {ms : List Move} {E : VisitEnv} {verbose : Bool}
    (h : ∀ n, ¬ OpenAt (exec C ms).trace n) :
    ((Visitor.init verbose).onAll E (exec C ms).trace).1 = Visitor.init verbose := by
  have hq : ((Visitor.init verbose).onAll E (exec C ms).trace).1.queued = [] := by
    rw [List.eq_nil_iff_forall_not_mem]
    intro n hn
    rw [← after_eq _ _ (fun _ => true)] at hn
    rcases after_queued hn with hn | ⟨hn, _⟩
    · rw [List.map_map] at hn
      exact h n (by simpa [Function.comp_def] using hn)
    · cases hn
  have hv := onAll_verbose E (Visitor.init verbose) (exec C ms).trace
  generalize ((Visitor.init verbose).onAll E (exec C ms).trace).1 = v at *
  cases v
  simp only at hq hv
  subst hq; subst hv
  rfl

/-- **C76**, executions one after the other, each with its dag as the only one alive.  If each of them
but the last left no task waiting, then nothing undefined happens and each of them prints what it would
have printed with a visitor of its own. -/
theorem C76_sequence (verbose : Bool) (X : List (Cfg × List Move × VisitEnv))
    (hwf : ∀ x ∈ X, x.1.dag.WF)
    (hclean : ∀ x ∈ X.dropLast, ∀ n, ¬ OpenAt (exec x.1 x.2.1).trace n) :
    ((Visitor.init verbose).calls (X.flatMap fun x => callsOf x.1 x.2.1 x.2.2)).map Prod.snd =
      some (X.flatMap fun x => ((Visitor.init verbose).onAll x.2.2 (exec x.1 x.2.1).trace).2) := by
  induction X with
  | nil => rfl
  | cons x X ih =>
    rw [List.flatMap_cons, List.flatMap_cons, calls_append,
      calls_exec x.1 (hwf x List.mem_cons_self), Option.bind_some]
    cases X with
    | nil => simp [Visitor.calls]
    | cons y Y =>
      rw [clean_init (hclean x (by simp))]
      have := ih (fun z hz => hwf z (List.mem_cons_of_mem _ hz))
        (fun z hz => hclean z (by rw [List.dropLast_cons_of_ne_nil (by simp)]; exact List.mem_cons_of_mem _ hz))
      obtain ⟨p, hp, hp2⟩ := Option.map_eq_some_iff.1 this
      rw [hp, ← hp2]
      rfl

/-- with at most one thread the visitor is told the end of a task that has its record, after its start -/
theorem told_later (C : Cfg) (hwf : C.dag.WF) (htc : C.threadCount ≤ 1) (ms : List Move) {a b : List Event}
    {er : ExecRecord} {n : Node} (hab : (exec C ms).trace = a ++ .beforeRun er n :: b)
    (h : Recorded (exec C ms).trace n) : ∃ er r, .afterRun er r n ∈ b := by
  obtain ⟨r, hr, hrn⟩ := h
  obtain ⟨er', m, ha⟩ := mem_recsOf.1 hr
  have hm := C16_partial C hwf htc ms er' r m ha
  rw [hm, hrn] at ha
  rw [hab] at ha
  rcases List.mem_append.1 ha with ha | ha
  · -- the end would come before the start
    have hl : life n (exec C ms).trace = life n a ++ Tag.before :: life n b := by
      rw [hab, life, List.filterMap_append, List.filterMap_cons]
      simp [tagOf, life]
    have hafter : Tag.after ∈ life n a := List.mem_filterMap.2 ⟨_, ha, by simp [tagOf, hrn]⟩
    have key : ∀ l : List Tag, Tag.before ∉ l.tail → ¬ life n (exec C ms).trace <+: l := by
      rintro l hl' ⟨t, rfl⟩
      rw [hl] at hl'
      generalize life n a = la at *
      cases la with
      | nil => cases hafter
      | cons x la => exact hl' (by simp)
    rcases C15_node_history C hwf ms n with h | ⟨_, h⟩ | ⟨_, h⟩
    · exact absurd h (key _ (by decide))
    · exact absurd h (key _ (by decide))
    · exact absurd h (key _ (by decide))
  · rcases List.mem_cons.1 ha with ha | ha
    · cases ha
    · exact ⟨_, _, ha⟩

/-- **C76**, when an execution leaves no task waiting: when it ran to its end, when it ended before the
first task was started (a cycle, an exception of `is_invalidated`), and, with at most one thread, when
every task started got its record. -/
theorem C76_clean (C : Cfg) (hwf : C.dag.WF) (ms : List Move)
    (h : (exec C ms).phase = .finished ∨ (∀ er n, .beforeRun er n ∉ (exec C ms).trace) ∨
      (C.threadCount ≤ 1 ∧ ∀ er n, .beforeRun er n ∈ (exec C ms).trace → Recorded (exec C ms).trace n)) :
    ∀ n, ¬ OpenAt (exec C ms).trace n := by
  rintro n ⟨a, er, b, hab, h1, h2⟩
  have hmem : Event.beforeRun er n ∈ (exec C ms).trace := by rw [hab]; simp
  rcases h with h | h | ⟨htc, h⟩
  · obtain ⟨pre, hpre⟩ := (C15_after_execution C hwf ms).2 h
    rcases List.eq_nil_or_concat b with rfl | ⟨b', x, rfl⟩
    · rw [hpre] at hab
      have := (List.append_inj' hab rfl).2
      simp at this
    · rw [hpre, List.concat_eq_append, ← List.cons_append, ← List.append_assoc] at hab
      have := (List.append_inj' hab rfl).2
      refine h2 (exec C ms).erec ?_
      rw [List.concat_eq_append, ← this]
      exact List.mem_append_right _ (List.mem_singleton_self _)
  · exact h er n hmem
  · obtain ⟨er', r, ha⟩ := told_later C hwf htc ms hab (h er n hmem)
    exact h1 _ _ ha

theorem sorted_step {E : VisitEnv} {v : Visitor} {e : Event} (h : v.queued.Pairwise (· < ·)) :
    (v.on E e).1.queued.Pairwise (· < ·) := by
  cases e with
  | beforeRun er m =>
    show (v.beforeRun E er m).1.queued.Pairwise (· < ·)
    unfold Visitor.beforeRun
    split
    · exact sorted_setInsert h
    · exact h
  | afterRun er r m => exact h.filter _
  | afterExecution er => exact List.Pairwise.nil
  | _ => exact h

theorem sorted_after {v : Visitor} (h : v.queued.Pairwise (· < ·)) (cs : List VCall) :
    (v.after cs).queued.Pairwise (· < ·) := by
  induction cs using List.reverseRecOn with
  | nil => exact h
  | append_singleton cs c ih => rw [after_snoc]; exact sorted_step ih

theorem still_queued {v : Visitor} {cs : List VCall} {n : Node} (h : n ∈ v.queued)
    (h1 : ∀ er r, .afterRun er r n ∉ cs.map VCall.ev) (h2 : ∀ er, .afterExecution er ∉ cs.map VCall.ev) :
    n ∈ (v.after cs).queued := by
  induction cs using List.reverseRecOn with
  | nil => exact h
  | append_singleton cs c ih =>
    rw [List.map_append, List.map_singleton] at h1 h2
    have hq := ih (fun er r hm => h1 er r (List.mem_append_left _ hm))
      (fun er hm => h2 er (List.mem_append_left _ hm))
    rw [after_snoc]
    generalize v.after cs = w at hq ⊢
    generalize hce : c.ev = e at h1 h2 ⊢
    cases e with
    | beforeRun er m =>
      show n ∈ (w.beforeRun c.env er m).1.queued
      unfold Visitor.beforeRun
      split
      · exact mem_setInsert.2 (.inr hq)
      · exact hq
    | afterRun er r m =>
      show n ∈ w.queued.filter (· ≠ m)
      rw [List.mem_filter]
      refine ⟨hq, decide_eq_true ?_⟩
      rintro rfl
      exact h1 er r (by simp)
    | afterExecution er => exact absurd (by simp) (h2 er)
    | _ => exact hq

/-- the visitor, in `after_run`, reads the first node that is still queued -/
theorem after_reads {E : VisitEnv} {w : Visitor} {er : ExecRecord} {r : RunRecord} {m a : Node}
    {q : List Node} (hq : w.queued.filter (· ≠ m) = a :: q) :
    Item.status er a ∈ (w.on E (.afterRun er r m)).2 := by
  show Item.status er a ∈ (w.afterRun E er r m).2
  unfold Visitor.afterRun
  simp only [hq]
  exact List.mem_append_right _ (List.mem_singleton_self _)

/-- **C76**, what goes wrong otherwise.  Let the visitor wait for a task whose node is gone: then in the
next execution the end of any task is undefined behaviour, if that node was allocated at a lower address
than all nodes of the new dag, and, with at most one thread, wherever it was, if the execution comes to
its end. -/
theorem C76_undefined (v : Visitor) (hs : v.queued.Pairwise (· < ·)) (C : Cfg) (hwf : C.dag.WF)
    (ms : List Move) (E : VisitEnv) (hgone : ∀ s ∈ v.queued, s ∉ C.dag.nodes) :
    ((∃ s ∈ v.queued, ∀ n ∈ C.dag.nodes, s < n) → (∃ er r n, .afterRun er r n ∈ (exec C ms).trace) →
      v.calls (callsOf C ms E) = none) ∧
    (v.queued ≠ [] → C.threadCount ≤ 1 → C.dag.nodes ≠ [] → (exec C ms).phase = .finished →
      v.calls (callsOf C ms E) = none) := by
  -- what is queued between two calls
  have hin : ∀ pre post, (exec C ms).trace = pre ++ post → ∀ cs : List VCall, cs.map VCall.ev = pre →
      ∀ n ∈ (v.after cs).queued, n ∈ v.queued ∨ (n ∈ C.dag.nodes ∧ OpenAt pre n) := by
    intro pre post htr cs hcs n hn
    rcases after_queued hn with h | ⟨h, _⟩
    · rw [hcs] at h
      refine .inr ⟨?_, h⟩
      obtain ⟨a, er, b, hab, _⟩ := h
      exact about_nodes C hwf ms (e := .beforeRun er n) (by rw [htr, hab]; simp) (by simp [Event.about])
    · exact .inl h
  -- the first node queued at the end of a task
  have hhead : ∀ pre er r m post, (exec C ms).trace = pre ++ .afterRun er r m :: post →
      ∀ s ∈ v.queued, (∀ n ∈ C.dag.nodes, OpenAt (pre ++ [.afterRun er r m]) n → s ≤ n) →
      v.calls (callsOf C ms E) = none := by
    intro pre er r m post htr s hsq hmin
    let mk : Event → VCall := fun e => { env := E, alive := fun n => decide (n ∈ C.dag.nodes), ev := e }
    have hmk : ∀ l : List Event, (l.map mk).map VCall.ev = l := by
      intro l; rw [List.map_map]; exact List.map_id l
    have hsplit : callsOf C ms E = pre.map mk ++ mk (.afterRun er r m) :: post.map mk := by
      rw [callsOf, htr, List.map_append, List.map_cons]
    have hmn : m ∈ C.dag.nodes := C16_real C hwf ms (er := er) (r := r) (by rw [htr]; simp)
    have hstill : s ∈ (v.after (pre.map mk)).queued := by
      refine still_queued hsq ?_ ?_
      · intro er' r' hm
        rw [hmk] at hm
        exact hgone s hsq (C16_real C hwf ms (er := er') (r := r') (by rw [htr]; exact List.mem_append_left _ hm))
      · intro er' hm
        rw [hmk] at hm
        obtain ⟨p, q, hpq⟩ := List.append_of_mem hm
        have := ((C15_after_execution C hwf ms).1 p er' (q ++ .afterRun er r m :: post)
          (by rw [htr, hpq]; simp)).1
        simp at this
    have hs' := sorted_after hs (pre.map mk)
    have hq2 : s ∈ (v.after (pre.map mk)).queued.filter (· ≠ m) := by
      rw [List.mem_filter]
      exact ⟨hstill, decide_eq_true (fun h => hgone s hsq (h ▸ hmn))⟩
    cases hq : (v.after (pre.map mk)).queued.filter (· ≠ m) with
    | nil => rw [hq] at hq2; cases hq2
    | cons a q =>
      have ha : a ∉ C.dag.nodes := by
        intro han
        have haq : a ∈ (v.after (pre.map mk ++ [mk (.afterRun er r m)])).queued := by
          rw [after_snoc]
          show a ∈ (v.after (pre.map mk)).queued.filter (· ≠ m)
          rw [hq]; exact List.mem_cons_self
        rcases hin (pre ++ [.afterRun er r m]) post (by rw [htr]; simp) _
          (by rw [List.map_append, hmk]; rfl) a haq with h | ⟨_, h⟩
        · exact hgone a h han
        · have hle := hmin a han h
          have hpw := hs'.filter (fun x => decide (x ≠ m))
          rw [hq, List.pairwise_cons] at hpw
          rw [hq] at hq2
          rcases List.mem_cons.1 hq2 with rfl | h'
          · exact hgone s hsq han
          · exact absurd (hpw.1 s h') (Nat.not_lt.2 hle)
      rw [hsplit]
      exact calls_none (i := .status er a) (n := a) (after_reads hq) (by simp [Item.names])
        (decide_eq_false ha)
  constructor
  · rintro ⟨s, hsq, hlt⟩ ⟨er, r, m, hm⟩
    obtain ⟨pre, post, htr⟩ := List.append_of_mem hm
    exact hhead pre er r m post htr s hsq (fun n hn _ => Nat.le_of_lt (hlt n hn))
  · intro hne htc hnodes hfin
    obtain ⟨s, hsq⟩ := List.exists_mem_of_ne_nil _ hne
    obtain ⟨pre0, hpre0⟩ := (C15_after_execution C hwf ms).2 hfin
    have hall := ((C15_after_execution C hwf ms).1 pre0 _ [] hpre0).2.2.1
    -- the last end of a task
    have hlast : ∃ pre er r m post, (exec C ms).trace = pre ++ .afterRun er r m :: post ∧
        ∀ er' r' m', .afterRun er' r' m' ∉ post := by
      obtain ⟨n, hn⟩ := List.exists_mem_of_ne_nil _ hnodes
      obtain ⟨r, hr, _⟩ := hall n hn
      obtain ⟨er, m, ha⟩ := mem_recsOf.1 hr
      have ha' : Event.afterRun er r m ∈ (exec C ms).trace := by
        rw [hpre0]; exact List.mem_append_left _ ha
      clear hr ha
      generalize (exec C ms).trace = tr at ha' ⊢
      clear hpre0
      induction tr using List.reverseRecOn with
      | nil => cases ha'
      | append_singleton tr e ih =>
        by_cases he : ∃ er' r' m', e = .afterRun er' r' m'
        · obtain ⟨er', r', m', rfl⟩ := he
          exact ⟨tr, er', r', m', [], rfl, by simp⟩
        · rcases List.mem_append.1 ha' with h | h
          · obtain ⟨p, er', r', m', q, rfl, hq⟩ := ih h
            refine ⟨p, er', r', m', q ++ [e], by simp, ?_⟩
            intro er2 r2 m2 hm2
            rcases List.mem_append.1 hm2 with hm2 | hm2
            · exact hq _ _ _ hm2
            · exact he ⟨_, _, _, (List.mem_singleton.1 hm2).symm⟩
          · exact absurd ⟨_, _, _, (List.mem_singleton.1 h).symm⟩ he
    obtain ⟨pre, er, r, m, post, htr, hpost⟩ := hlast
    refine hhead pre er r m post htr s hsq ?_
    rintro n hn ⟨a, er', b, hab, h1, _⟩
    exfalso
    have hrec : Recorded (exec C ms).trace n := by
      obtain ⟨r2, hr2, hn2⟩ := hall n hn
      obtain ⟨er3, m3, h3⟩ := mem_recsOf.1 hr2
      exact ⟨r2, mem_recsOf.2 ⟨er3, m3, by rw [hpre0]; exact List.mem_append_left _ h3⟩, hn2⟩
    obtain ⟨er2, r2, h2⟩ := told_later C hwf htc ms (a := a) (er := er') (b := b ++ post) (n := n)
      (by rw [htr, List.append_cons, hab]; simp) hrec
    rcases List.mem_append.1 h2 with h2 | h2
    · exact h1 _ _ h2
    · exact hpost _ _ _ h2


/-- **C76** is false: the execution of three tasks is abandoned while two of them are being executed, so
the visitor waits for them forever; then another execution is run with the same visitor: undefined
behaviour. -/
theorem C76_counterexample :
    (exec (Ex.par 3) Ex.abandoned).phase = .destroyed ∧
    (exec Ex.other (List.replicate 16 .ctl)).phase = .finished ∧
    (Visitor.init false).calls
      (callsOf (Ex.par 3) Ex.abandoned (noneHidden (Ex.par 3)) ++
        callsOf Ex.other (List.replicate 16 .ctl) (noneHidden Ex.other)) = none := by
  refine ⟨by decide +kernel, by decide +kernel, ?_⟩
  rw [← Option.isNone_iff_eq_none]
  decide +kernel

/-- the hypotheses of the other theorems: a node left over, below all nodes of the next dag; and the same
two executions in the other order -/
example : ((Visitor.init false).onAll (noneHidden (Ex.par 3)) (exec (Ex.par 3) Ex.abandoned).trace).1.queued
      = [1, 3] ∧ (∀ s ∈ [1, 3], s ∉ Ex.other.dag.nodes ∧ ∀ n ∈ Ex.other.dag.nodes, s < n) ∧
    ((Visitor.init false).calls
      (callsOf Ex.other (List.replicate 16 .ctl) (noneHidden Ex.other) ++
        callsOf (Ex.par 3) Ex.abandoned (noneHidden (Ex.par 3)))).isSome = true := by
  decide +kernel

end Joque
