import Verif.Model.Marks
import Verif.Spec.Marks
import Verif.Proof.TraceInv3
import Verif.Props.Tick

/-! # The marks at each event say what has happened -/

namespace Joque

/-- at each of the events `es`, which follow `tr`, the marks say what has happened -/
def Marked : List Event → List Event → List Flags → Prop
  | _, [], [] => True
  | tr, e :: es, f :: fs => Agree f (tr ++ [e]) ∧ Marked (tr ++ [e]) es fs
  | _, _, _ => False

theorem marked_append {es' : List Event} {fs' : List Flags} :
    ∀ {es : List Event} {fs : List Flags} {tr : List Event}, Marked tr es fs →
      Marked (tr ++ es) es' fs' → Marked tr (es ++ es') (fs ++ fs') := by
  intro es
  induction es with
  | nil =>
    intro fs tr h h'
    cases fs with
    | nil => simpa using h'
    | cons => exact h.elim
  | cons e es ih =>
    intro fs tr h h'
    cases fs with
    | nil => exact h.elim
    | cons f fs => exact ⟨h.1, ih h.2 (by simpa using h')⟩

theorem marked_length : ∀ {es : List Event} {fs : List Flags} {tr : List Event}, Marked tr es fs →
    es.length = fs.length := by
  intro es
  induction es with
  | nil =>
    intro fs tr h
    cases fs with
    | nil => rfl
    | cons => exact h.elim
  | cons e es ih =>
    intro fs tr h
    cases fs with
    | nil => exact h.elim
    | cons f fs => simp [ih h.2]

theorem marked_split : ∀ {es : List Event} {fs : List Flags} {tr : List Event}, Marked tr es fs →
    ∀ {pre : List (Event × Flags)} {e f post}, es.zip fs = pre ++ (e, f) :: post →
      Agree f (tr ++ pre.map Prod.fst ++ [e]) := by
  intro es
  induction es with
  | nil => intro fs tr h pre e f post hz; simp at hz
  | cons e' es ih =>
    intro fs tr h pre e f post hz
    cases fs with
    | nil => exact h.elim
    | cons f' fs =>
      cases pre with
      | nil =>
        simp only [List.zip_cons_cons, List.nil_append, List.cons.injEq, Prod.mk.injEq] at hz
        obtain ⟨⟨rfl, rfl⟩, _⟩ := hz
        simpa using h.1
      | cons p pre =>
        simp only [List.zip_cons_cons, List.cons_append, List.cons.injEq] at hz
        obtain ⟨rfl, hz⟩ := hz
        simpa using ih h.2 hz

/-- events that change no mark -/
def Event.neutral : Event → Bool
  | .jobInval _ _ _ | .depInval _ _ | .launch _ | .jobBegin _ true | .afterRun _ _ _ => false
  | _ => true

theorem lastSaid_snoc (n : Node) (tr : List Event) (e : Event) : lastSaid n (tr ++ [e]) =
    match e with
    | .jobInval m i _ => if m = n then i else lastSaid n tr
    | .depInval m _ => if m = n then .invalid else lastSaid n tr
    | _ => lastSaid n tr := by
  simp only [lastSaid, List.foldl_append, List.foldl_cons, List.foldl_nil]
  cases e <;> rfl

theorem recsOf_snoc' (tr : List Event) (e : Event) : recsOf (tr ++ [e]) =
    match e with
    | .afterRun _ r _ => recsOf tr ++ [r]
    | _ => recsOf tr := by
  cases e <;> simp [recsOf]

theorem agree_neutral {f : Flags} {tr : List Event} {e : Event} (h : Agree f tr)
    (he : e.neutral = true) : Agree f (tr ++ [e]) := by
  have hr : recsOf (tr ++ [e]) = recsOf tr := by
    rw [recsOf_snoc']
    cases e <;> simp_all [Event.neutral]
  refine ⟨fun n => ?_, fun n => ?_, fun n => ?_, fun n => ?_⟩
  · rw [lastSaid_snoc, h.inval n]
    cases e <;> simp_all [Event.neutral]
  · rw [h.started n]
    cases e with
    | jobBegin m b => cases b <;> simp_all [Event.neutral, HandedOver]
    | _ => simp_all [Event.neutral, HandedOver]
  · rw [h.done n, Recorded, Recorded, hr]
  · rw [h.failed n, hr]

theorem agree_handed {f : Flags} {tr : List Event} {e : Event} {n : Node} (h : Agree f tr)
    (he : e = .launch n ∨ e = .jobBegin n true) :
    Agree { f with started := setFlag f.started n } (tr ++ [e]) := by
  have hr : recsOf (tr ++ [e]) = recsOf tr := by
    rw [recsOf_snoc']
    rcases he with rfl | rfl <;> rfl
  refine ⟨fun m => ?_, fun m => ?_, fun m => ?_, fun m => ?_⟩
  · rw [lastSaid_snoc, h.inval m]
    rcases he with rfl | rfl <;> rfl
  · have := h.started m
    simp only [setFlag]
    unfold HandedOver at this ⊢
    rcases he with rfl | rfl <;> by_cases hm : m = n <;> simp [hm] <;> simp_all
  · rw [h.done m, Recorded, Recorded, hr]
  · rw [h.failed m, hr]

theorem agree_record {f : Flags} {tr : List Event} {er : ExecRecord} {r : RunRecord} {x : Node}
    (h : Agree f tr) {f' : Flags} (hi : f'.inval = f.inval) (hs : f'.started = f.started)
    (hd : f'.done = setFlag f.done r.node)
    (hf : f'.failed = if r.status = .fail ∨ r.status = .depf then setFlag f.failed r.node
      else f.failed) : Agree f' (tr ++ [.afterRun er r x]) := by
  refine ⟨fun m => ?_, fun m => ?_, fun m => ?_, fun m => ?_⟩
  · rw [lastSaid_snoc, hi, h.inval m]
  · rw [hs, h.started m]; simp [HandedOver]
  · have := h.done m
    rw [hd]
    simp only [setFlag, Recorded, recsOf_snoc'] at this ⊢
    by_cases hm : m = r.node
    · simp [hm]
    · simp only [hm, if_false, this, List.mem_append, List.mem_singleton]
      constructor
      · rintro ⟨q, h1, h2⟩; exact ⟨q, .inl h1, h2⟩
      · rintro ⟨q, h1 | rfl, h2⟩
        · exact ⟨q, h1, h2⟩
        · exact absurd h2.symm hm
  · have := h.failed m
    rw [hf]
    simp only [recsOf_snoc']
    by_cases hb : r.status = .fail ∨ r.status = .depf
    · rw [if_pos hb]
      simp only [setFlag]
      by_cases hm : m = r.node
      · simp only [hm, if_true, true_iff]
        exact ⟨r, by simp, rfl, hb⟩
      · simp only [hm, if_false, this, List.mem_append, List.mem_singleton]
        constructor
        · rintro ⟨q, h1, h2⟩; exact ⟨q, .inl h1, h2⟩
        · rintro ⟨q, h1 | rfl, h2⟩
          · exact ⟨q, h1, h2⟩
          · exact absurd h2.1.symm hm
    · rw [if_neg hb, this]
      simp only [List.mem_append, List.mem_singleton]
      constructor
      · rintro ⟨q, h1, h2⟩; exact ⟨q, .inl h1, h2⟩
      · rintro ⟨q, h1 | rfl, h2⟩
        · exact ⟨q, h1, h2⟩
        · exact absurd h2.2 hb

theorem agree_inval {f : Flags} {i : Node → Inval} {tr : List Event} {e : Event} {n : Node}
    {v : Inval} (h : Agree { f with inval := i } tr)
    (he : (∃ l, e = .jobInval n v l) ∨ (v = .invalid ∧ ∃ m, e = .depInval n m)) :
    Agree { f with inval := setInval i n v } (tr ++ [e]) := by
  have hr : recsOf (tr ++ [e]) = recsOf tr := by
    rw [recsOf_snoc']
    rcases he with ⟨l, rfl⟩ | ⟨_, m, rfl⟩ <;> rfl
  refine ⟨fun m => ?_, fun m => ?_, fun m => ?_, fun m => ?_⟩
  · have := h.inval m
    rw [lastSaid_snoc]
    simp only [setInval] at this ⊢
    rcases he with ⟨l, rfl⟩ | ⟨rfl, k, rfl⟩ <;> by_cases hm : m = n
    · simp [hm]
    · simp [hm, Ne.symm hm, this]
    · simp [hm]
    · simp [hm, Ne.symm hm, this]
  · have := h.started m
    simp only at this ⊢
    rw [this]
    rcases he with ⟨l, rfl⟩ | ⟨_, k, rfl⟩ <;> simp [HandedOver]
  · have := h.done m
    rw [Recorded] at this ⊢
    rw [hr]; exact this
  · have := h.failed m
    rw [hr]; exact this

theorem marked_neutral {f : Flags} : ∀ {es : List Event} {tr : List Event}, Agree f tr →
    (∀ e ∈ es, e.neutral = true) → Marked tr es (es.map fun _ => f) ∧ Agree f (tr ++ es) := by
  intro es
  induction es with
  | nil => intro tr h _; exact ⟨trivial, by simpa using h⟩
  | cons e es ih =>
    intro tr h hn
    have h1 := agree_neutral h (hn e (by simp))
    have h2 := ih h1 fun e' he' => hn e' (by simp [he'])
    exact ⟨⟨h1, h2.1⟩, by simpa using h2.2⟩

/-- the marks with other `invalidated` marks -/
def withInval (f : Flags) (i : Node → Inval) : Flags := { f with inval := i }

theorem query_marks (hasJob : Node → Bool) (ask : Node → InvalOut) (fl : Flags) :
    ∀ (ns tp : List Node) (s : PSt) (tr : List Event), Agree (withInval fl s.inval) tr →
      ∃ evs, Marked tr evs ((queryMarks hasJob ask ns s.inval).map (withInval fl)) ∧
        match queryLoop hasJob ask ns tp s with
        | .ok _ s' => s'.events = s.events ++ evs ∧ Agree (withInval fl s'.inval) (tr ++ evs)
        | .ub ev => ev = s.events ++ evs
        | .threw _ ev => ev = s.events ++ evs := by
  intro ns
  induction ns with
  | nil => intro tp s tr h; exact ⟨[], trivial, by simp, by simpa [queryLoop] using h⟩
  | cons n ns ih =>
    intro tp s tr h
    simp only [queryMarks, queryLoop]
    by_cases hj : hasJob n = true
    · simp only [hj, if_true]
      cases ha : ask n with
      | throws w => exact ⟨[], trivial, by simp⟩
      | answer r =>
        dsimp only
        by_cases hr : r.invalidated = true
        · simp only [hr, if_true]
          have h1 : Agree (withInval fl (setInval s.inval n .invalid))
              (tr ++ [.jobInval n .invalid r.log]) :=
            agree_inval h (.inl ⟨_, rfl⟩)
          obtain ⟨evs, h2, h3⟩ := ih (sinsert n tp)
            { inval := setInval s.inval n .invalid
              events := s.events ++ [.jobInval n .invalid r.log] } _ h1
          refine ⟨.jobInval n .invalid r.log :: evs, ⟨h1, h2⟩, ?_⟩
          revert h3
          cases queryLoop hasJob ask ns (sinsert n tp) _ <;> simp
        · simp only [hr]
          have h1 : Agree (withInval fl (setInval s.inval n .valid))
              (tr ++ [.jobInval n .valid r.log]) :=
            agree_inval h (.inl ⟨_, rfl⟩)
          obtain ⟨evs, h2, h3⟩ := ih tp
            { inval := setInval s.inval n .valid
              events := s.events ++ [.jobInval n .valid r.log] } _ h1
          refine ⟨.jobInval n .valid r.log :: evs, ⟨h1, h2⟩, ?_⟩
          revert h3
          simp only [Bool.false_eq_true, if_false]
          cases queryLoop hasJob ask ns tp _ <;> simp
    · simp only [hj]
      exact ⟨[], trivial, by simp⟩

theorem edges_marks (fl : Flags) (seen : List Node) :
    ∀ (es : List Edge) (tp : List Node) (s : PSt) (tr : List Event),
      Agree (withInval fl s.inval) tr →
      ∃ evs, Marked tr evs ((propEdgesMarks seen es s.inval).map (withInval fl)) ∧
        (propEdges seen es tp s).2.events = s.events ++ evs ∧
        Agree (withInval fl (propEdges seen es tp s).2.inval) (tr ++ evs) := by
  intro es
  induction es with
  | nil => intro tp s tr h; exact ⟨[], trivial, by simp [propEdges], by simpa [propEdges] using h⟩
  | cons e es ih =>
    intro tp s tr h
    simp only [propEdgesMarks, propEdges]
    split
    · exact ih tp s tr h
    · have h1 : Agree (withInval fl (setInval s.inval e.src .invalid))
          (tr ++ [.depInval e.src e.tgt]) := agree_inval h (.inr ⟨rfl, _, rfl⟩)
      obtain ⟨evs, h2, h3, h4⟩ := ih (sinsert e.src tp)
        { inval := setInval s.inval e.src .invalid
          events := s.events ++ [.depInval e.src e.tgt] } _ h1
      exact ⟨.depInval e.src e.tgt :: evs, ⟨h1, h2⟩, by simpa using h3, by simpa using h4⟩

theorem loop_marks (g : Dag) (fl : Flags) :
    ∀ (fuel : Nat) (tp seen : List Node) (s : PSt) (tr : List Event),
      Agree (withInval fl s.inval) tr →
      ∃ evs, Marked tr evs ((propLoopMarks g fuel tp seen s).map (withInval fl)) ∧
        match propLoop g fuel tp seen s with
        | .ok s' => s'.events = s.events ++ evs ∧ Agree (withInval fl s'.inval) (tr ++ evs)
        | .ub _ => False
        | .threw _ _ => False
        | _ => True := by
  intro fuel
  induction fuel with
  | zero => intro tp seen s tr h; exact ⟨[], trivial, trivial⟩
  | succ fuel ih =>
    intro tp seen s tr h
    cases tp with
    | nil => exact ⟨[], trivial, by simp, by simpa [propLoop] using h⟩
    | cons p tp =>
      simp only [propLoopMarks, propLoop]
      split
      · exact ⟨[], trivial, trivial⟩
      · obtain ⟨evs, h1, h2, h3⟩ := edges_marks fl (p :: seen)
          (filterEdges .invalidatedBy (g.inEdges p)) tp s tr h
        obtain ⟨evs', h4, h5⟩ := ih
          (propEdges (p :: seen) (filterEdges .invalidatedBy (g.inEdges p)) tp s).1 (p :: seen)
          (propEdges (p :: seen) (filterEdges .invalidatedBy (g.inEdges p)) tp s).2 _ h3
        refine ⟨evs ++ evs', by rw [List.map_append]; exact marked_append h1 h4, ?_⟩
        revert h5
        cases propLoop g fuel _ _ _ <;> simp [h2]

theorem propagate_marks (g : Dag) (hasJob : Node → Bool) (ask : Node → InvalOut) (tp : List Node)
    (fl : Flags) (tr : List Event) (h : Agree fl tr) :
    ∃ evs, Marked tr evs ((propagateMarks g hasJob ask tp fl.inval).map (withInval fl)) ∧
      match propagateInvalidation g hasJob ask tp fl.inval with
      | .ok s' => s'.events = evs ∧ Agree (withInval fl s'.inval) (tr ++ evs)
      | .ub ev => ev = evs
      | .threw _ ev => ev = evs
      | _ => True := by
  obtain ⟨evs, h1, h2⟩ := query_marks hasJob ask fl tp [] { inval := fl.inval, events := [] } tr h
  unfold propagateMarks propagateInvalidation
  revert h2
  cases queryLoop hasJob ask tp [] { inval := fl.inval, events := [] } with
  | ub ev => intro h2; exact ⟨evs, by simpa using h1, by simpa using h2⟩
  | threw w ev => intro h2; exact ⟨evs, by simpa using h1, by simpa using h2⟩
  | ok tp' s' =>
    rintro ⟨h2, h3⟩
    obtain ⟨evs', h4, h5⟩ := loop_marks g fl (g.nodes.length + 1) tp' tp' s' _ h3
    refine ⟨evs ++ evs', by rw [List.map_append]; exact marked_append h1 h4, ?_⟩
    revert h5
    dsimp only
    cases propLoop g (g.nodes.length + 1) tp' tp' s' <;> simp [h2]

theorem prologue_marks (C : Cfg) (s : St) (h : Agree s.flags s.trace) :
    ∃ evs, (prologue C s).trace = s.trace ++ evs ∧ Marked s.trace evs (prologueMarks C s) ∧
      ((prologue C s).phase.active = true → Agree (prologue C s).flags (s.trace ++ evs)) := by
  obtain ⟨h1, h2⟩ := marked_neutral (es := .resumed :: C.dag.nodes.map Event.nodeEnque) h (by
    intro e he
    simp only [List.mem_cons, List.mem_map] at he
    rcases he with rfl | ⟨n, _, rfl⟩ <;> rfl)
  have h1' : Marked s.trace (.resumed :: C.dag.nodes.map Event.nodeEnque)
      (s.flags :: C.dag.nodes.map (fun _ => s.flags)) := by
    simpa only [List.map_cons, List.map_map, Function.comp_def] using h1
  have hrep : ∀ reps : List (List Node), Marked
      (s.trace ++ .resumed :: C.dag.nodes.map Event.nodeEnque) (reps.map Event.detectedCycle)
      (reps.map fun _ => s.flags) ∧ Agree s.flags
        (s.trace ++ .resumed :: C.dag.nodes.map Event.nodeEnque ++ reps.map Event.detectedCycle) := by
    intro reps
    obtain ⟨a, b⟩ := marked_neutral (es := reps.map Event.detectedCycle) h2 (by
      intro e he
      simp only [List.mem_map] at he
      rcases he with ⟨n, _, rfl⟩; rfl)
    exact ⟨by simpa only [List.map_map, Function.comp_def] using a, b⟩
  unfold prologue prologueMarks
  dsimp only
  cases hasCycle C.dag (toProcessOf C.dag) with
  | outOfFuel => exact ⟨_, rfl, by simpa using h1', by simp [Phase.active]⟩
  | assertFailed => exact ⟨_, rfl, by simpa using h1', by simp [Phase.active]⟩
  | result b reps =>
    cases b with
    | true =>
      exact ⟨_, by simp only [List.append_assoc], marked_append h1' (hrep reps).1, by simp [Phase.active]⟩
    | false =>
      obtain ⟨evs, h3, h4⟩ := propagate_marks C.dag C.hasJob C.ask (toProcessOf C.dag) s.flags _
        (hrep reps).2
      have h3' := marked_append h1' (marked_append (hrep reps).1 h3)
      dsimp only
      revert h4
      cases propagateInvalidation C.dag C.hasJob C.ask (toProcessOf C.dag) s.flags.inval with
      | ok p =>
        rintro ⟨rfl, h4⟩
        exact ⟨_, by simp only [List.append_assoc], h3', fun _ => by simpa [withInval] using h4⟩
      | ub ev => rintro rfl; exact ⟨_, by simp only [List.append_assoc], h3', by simp [Phase.active]⟩
      | threw w ev =>
        rintro rfl; exact ⟨_, by simp only [List.append_assoc], h3', by simp [Phase.active]⟩
      | assertFailed =>
        intro _
        exact ⟨_, by simp only [List.append_assoc], marked_append h1' (hrep reps).1,
          by simp [Phase.active]⟩
      | outOfFuel =>
        intro _
        exact ⟨_, by simp only [List.append_assoc], marked_append h1' (hrep reps).1,
          by simp [Phase.active]⟩

theorem collect_marks (C : Cfg) (s : St) (ref : Node) (h : Handle) (rest : List Slot)
    (ha : Agree s.flags s.trace) :
    ∃ evs, (collect C s ref h rest).trace = s.trace ++ evs ∧
      Marked s.trace evs (collectMarks C s.flags h.node) ∧
      ((collect C s ref h rest).phase.active = true →
        Agree (collect C s ref h rest).flags (s.trace ++ evs)) := by
  unfold collect collectMarks
  dsimp only
  cases (asyncLambda (C.outcome h.node)).retcode with
  | none => exact ⟨[], by simp, trivial, by simp [Phase.active]⟩
  | some rc =>
    have h1 := agree_neutral (e := .runLog h.node (asyncLambda (C.outcome h.node)).log) ha rfl
    by_cases h0 : rc = 0
    · simp only [h0, ne_eq, not_true_eq_false, if_false, complete, St.emit]
      refine ⟨[_, _], by rw [List.append_assoc]; rfl, ?_⟩
      have h2 := agree_record (er := s.erec) (x := ref) (r :=
        { node := h.node, t := C.dag.task h.node, name := C.dag.name h.node, status := .ok
          retcode := 0, start := h.start
          «end» := (s.trace ++ [Event.runLog h.node (asyncLambda (C.outcome h.node)).log]).length
          output := (asyncLambda (C.outcome h.node)).output }) h1
        (f' := { s.flags with done := setFlag s.flags.done h.node }) rfl rfl rfl (by simp)
      exact ⟨⟨h1, h2, trivial⟩, fun _ => by simpa [St.now] using h2⟩
    · simp only [ne_eq, h0, not_false_eq_true, if_true, complete, St.emit]
      refine ⟨[_, _], by rw [List.append_assoc]; rfl, ?_⟩
      have h2 := agree_record (er := s.erec) (x := ref) (r :=
        { node := h.node, t := C.dag.task h.node, name := C.dag.name h.node, status := .fail
          retcode := rc, start := h.start
          «end» := (s.trace ++ [Event.runLog h.node (asyncLambda (C.outcome h.node)).log]).length
          output := (asyncLambda (C.outcome h.node)).output }) h1
        (f' := { s.flags with done := setFlag s.flags.done h.node
                              failed := setFlag s.flags.failed h.node }) rfl rfl rfl (by simp)
      exact ⟨⟨h1, h2, trivial⟩, fun _ => by simpa [St.now] using h2⟩

theorem start_marks (C : Cfg) (s : St) (ok : Bool) (ref : Node) (h : Handle) (rest : List Slot)
    (ha : Agree s.flags s.trace) :
    ∃ evs, (startRun C s ok ref h rest).trace = s.trace ++ evs ∧
      Marked s.trace evs (startMarks C s.flags ok h.node) ∧
      ((startRun C s ok ref h rest).phase.active = true →
        Agree (startRun C s ok ref h rest).flags (s.trace ++ evs)) := by
  have h1 := agree_neutral (e := .beforeRun s.erec h.node) ha rfl
  unfold startRun startMarks
  dsimp only
  split
  · exact ⟨[], by simp, trivial, by simp [Phase.active]⟩
  · have hfl : (s.emit (.beforeRun s.erec h.node)).flags = s.flags := rfl
    rw [hfl]
    split
    · refine ⟨[_, _], by simp only [complete, St.emit]; rw [List.append_assoc]; rfl, ?_⟩
      have h2 := agree_record (er := s.erec) (x := ref) (r :=
        { node := h.node, t := C.dag.task h.node, name := C.dag.name h.node, status := .depf
          retcode := 0, start := s.now, «end» := s.now, output := [] }) h1
        (f' := { s.flags with done := setFlag s.flags.done h.node
                              failed := setFlag s.flags.failed h.node }) rfl rfl rfl (by simp)
      exact ⟨⟨h1, h2, trivial⟩, fun _ => by simpa [complete, St.emit] using h2⟩
    · split
      · refine ⟨[_, _], by simp only [complete, St.emit]; rw [List.append_assoc]; rfl, ?_⟩
        have h2 := agree_record (er := s.erec) (x := ref) (r :=
          { node := h.node, t := C.dag.task h.node, name := C.dag.name h.node, status := .skip
            retcode := 0, start := s.now, «end» := s.now, output := [] }) h1
          (f' := { s.flags with done := setFlag s.flags.done h.node }) rfl rfl rfl (by simp)
        exact ⟨⟨h1, h2, trivial⟩, fun _ => by simpa [complete, St.emit] using h2⟩
      · split
        · have h2 := agree_handed (e := .jobBegin h.node true) h1 (.inr rfl)
          have h3 := agree_neutral (e := .jobEnd h.node) h2 rfl
          obtain ⟨evs, c1, c2, c3⟩ := collect_marks C
            ((({ s.emit (.beforeRun s.erec h.node) with
                flags := { s.flags with started := setFlag s.flags.started h.node }
                used := s.used ++ C.resources h.node } : St).emit
                  (.jobBegin h.node true)).emit (.jobEnd h.node)) ref
            { h with launched := true, start := s.now } rest h3
          refine ⟨[.beforeRun s.erec h.node, .jobBegin h.node true, .jobEnd h.node] ++ evs, ?_, ?_, ?_⟩
          · refine Eq.trans c1 ?_
            simp [St.emit]
          · exact marked_append ⟨h1, h2, h3, trivial⟩ (by simpa [St.emit] using c2)
          · intro hx
            have := c3 hx
            simpa [St.emit] using this
        · split
          · have h2 := agree_handed (e := .launch h.node) h1 (.inl rfl)
            refine ⟨[_, _], by simp only [St.emit]; rw [List.append_assoc]; rfl, ⟨h1, h2, trivial⟩,
              fun _ => ?_⟩
            simpa [St.emit] using h2
          · exact ⟨[_], rfl, ⟨h1, trivial⟩, by simp [Phase.active]⟩

theorem ctl_marks (C : Cfg) (s : St) (ok : Bool)
    (ha : s.phase = .created ∨ s.phase.active = true → Agree s.flags s.trace) :
    ∃ evs, (ctlStep C s ok).trace = s.trace ++ evs ∧ Marked s.trace evs (ctlMarks C s ok) ∧
      ((ctlStep C s ok).phase.active = true → Agree (ctlStep C s ok).flags (s.trace ++ evs)) := by
  have nil : ∀ s' : St, s'.trace = s.trace → s'.flags = s.flags →
      (s'.phase.active = true → s.phase.active = true) →
      ∃ evs, s'.trace = s.trace ++ evs ∧ Marked s.trace evs [] ∧
        (s'.phase.active = true → Agree s'.flags (s.trace ++ evs)) :=
    fun s' h h' hp => ⟨[], by rw [h, List.append_nil], trivial, fun hx => by
      rw [h', List.append_nil]; exact ha (.inr (hp hx))⟩
  unfold ctlStep ctlMarks
  cases hp : s.phase with
  | created => exact prologue_marks C s (ha (.inl hp))
  | loopTop =>
    dsimp only
    have ha' := ha (.inr (by rw [hp]; rfl))
    split
    · exact nil _ rfl rfl (by rw [hp]; simp [Phase.active])
    · have h1 := agree_neutral (e := .onTick s.erec) ha' rfl
      exact ⟨[.onTick s.erec], rfl, ⟨h1, trivial⟩, fun _ => h1⟩
  | clean d =>
    have hact : s.phase.active = true := by rw [hp]; rfl
    have ha' := ha (.inr hact)
    dsimp only
    unfold cleanStep
    cases s.todo with
    | nil => exact nil _ rfl rfl (fun _ => hact)
    | cons sl rest =>
      dsimp only
      split
      · exact start_marks C s ok sl.ref sl.h rest ha'
      · split
        · exact collect_marks C s sl.ref sl.h rest ha'
        · exact nil _ rfl rfl (fun _ => hact)
  | pick =>
    have hact : s.phase.active = true := by rw [hp]; rfl
    dsimp only
    unfold pickStep
    split
    · exact nil _ rfl rfl (fun _ => hact)
    · split
      · exact nil _ rfl rfl (fun _ => hact)
      · exact nil _ rfl rfl (fun _ => hact)
      · split <;> exact nil _ rfl rfl (fun _ => hact)
  | susp d =>
    have ha' := ha (.inr (by rw [hp]; rfl))
    have h1 := agree_neutral (e := .resumed) ha' rfl
    exact ⟨[.resumed], rfl, ⟨h1, trivial⟩, fun _ => h1⟩
  | drainTop =>
    have hact : s.phase.active = true := by rw [hp]; rfl
    dsimp only
    split
    · have h1 := agree_neutral (e := .afterExecution s.erec) (ha (.inr hact)) rfl
      exact ⟨[.afterExecution s.erec], rfl, ⟨h1, trivial⟩, fun _ => h1⟩
    · exact nil _ rfl rfl (fun _ => hact)
  | unwinding e => dsimp only; split <;> exact nil _ rfl rfl (by rw [hp]; simp [Phase.active])
  | destroying => dsimp only; split <;> exact nil _ rfl rfl (by rw [hp]; simp [Phase.active])
  | finished => exact nil _ rfl rfl (by simp [Phase.active])
  | threw e => exact nil _ rfl rfl (by simp [Phase.active])
  | destroyed => exact nil _ rfl rfl (by simp [hp])
  | ub => exact nil _ rfl rfl (by simp [hp])
  | abort => exact nil _ rfl rfl (by simp [hp])
  | outOfFuel => exact nil _ rfl rfl (by simp [hp])

theorem collectMarks_inval (C : Cfg) (f : Flags) (n : Node) :
    ∀ g ∈ collectMarks C f n, g.inval = f.inval := by
  intro g hg
  unfold collectMarks at hg
  dsimp only at hg
  split at hg
  · simp at hg
  · split at hg <;> simp only [List.mem_cons, List.not_mem_nil, or_false] at hg <;>
      rcases hg with rfl | rfl <;> rfl

theorem startMarks_inval (C : Cfg) (f : Flags) (ok : Bool) (n : Node) :
    ∀ g ∈ startMarks C f ok n, g.inval = f.inval := by
  intro g hg
  unfold startMarks at hg
  dsimp only at hg
  split at hg
  · simp at hg
  · split at hg
    · simp only [List.mem_cons, List.not_mem_nil, or_false] at hg
      rcases hg with rfl | rfl <;> rfl
    · split at hg
      · simp only [List.mem_cons, List.not_mem_nil, or_false] at hg
        rcases hg with rfl | rfl <;> rfl
      · split at hg
        · simp only [List.mem_append, List.mem_cons, List.not_mem_nil, or_false] at hg
          rcases hg with (rfl | rfl | rfl) | hg
          · rfl
          · rfl
          · rfl
          · exact (collectMarks_inval C _ n g hg).trans rfl
        · split at hg
          · simp only [List.mem_cons, List.not_mem_nil, or_false] at hg
            rcases hg with rfl | rfl <;> rfl
          · simp only [List.mem_cons, List.not_mem_nil, or_false] at hg
            rw [hg]

theorem ctlMarks_inval (C : Cfg) (s : St) (ok : Bool) (hc : s.phase ≠ .created) :
    ∀ f ∈ ctlMarks C s ok, s.phase.active = true ∧ f.inval = s.flags.inval := by
  intro f hf
  unfold ctlMarks at hf
  cases hp : s.phase with
  | created => exact absurd hp hc
  | loopTop =>
    rw [hp] at hf
    dsimp only at hf
    split at hf
    · simp at hf
    · rw [List.mem_singleton] at hf; rw [hf]; exact ⟨rfl, rfl⟩
  | clean d =>
    rw [hp] at hf
    dsimp only at hf
    refine ⟨rfl, ?_⟩
    split at hf
    · simp at hf
    · split at hf
      · exact startMarks_inval C _ ok _ f hf
      · split at hf
        · exact collectMarks_inval C _ _ f hf
        · simp at hf
  | susp d => rw [hp] at hf; rw [List.mem_singleton] at hf; rw [hf]; exact ⟨rfl, rfl⟩
  | drainTop =>
    rw [hp] at hf
    dsimp only at hf
    split at hf
    · rw [List.mem_singleton] at hf; rw [hf]; exact ⟨rfl, rfl⟩
    · simp at hf
  | _ => rw [hp] at hf; simp at hf

structure MInv (C : Cfg) (p : St × List (Event × Flags)) : Prop where
  fst : p.2.map Prod.fst = p.1.trace
  said : ∀ pre e f post, p.2 = pre ++ (e, f) :: post → e.isCallback = true →
    Agree f (pre.map Prod.fst ++ [e])
  cur : p.1.phase = .created ∨ p.1.phase.active = true → Agree p.1.flags p.1.trace
  stale : ∀ e f, (e, f) ∈ p.2 → e.late = true → StaleMarks C.dag C.ask f

theorem agree_init : Agree St.init.flags [] :=
  ⟨fun _ => rfl, fun _ => by simp [St.init, HandedOver],
    fun _ => by simp [St.init, Recorded, recsOf], fun _ => by simp [St.init, recsOf]⟩

theorem minv_init (C : Cfg) : MInv C (St.init, []) :=
  ⟨rfl, fun pre e f post h => by simp at h, fun _ => agree_init, fun e f h => by simp at h⟩

theorem staleMarks_of {C : Cfg} {s : St} (hI : Inv C s) (ha : s.phase.active = true) {f : Flags}
    (hf : f.inval = s.flags.inval) : StaleMarks C.dag C.ask f := by
  intro n hn
  have h := hI.invalActive ha n hn
  rw [hf]
  by_cases hs : Stale C.dag C.ask n
  · simp [h.1 hs, hs]
  · simp [h.2 hs, hs]

theorem split_append {α : Type} {a b pre post : List α} {x : α} (h : a ++ b = pre ++ x :: post) :
    (∃ q, a = pre ++ x :: q) ∨ ∃ q, pre = a ++ q ∧ b = q ++ x :: post := by
  rcases List.append_eq_append_iff.1 h with ⟨c, h1, h2⟩ | ⟨c, h1, h2⟩
  · exact .inr ⟨c, h1, h2⟩
  · cases c with
    | nil =>
      rw [List.append_nil] at h1
      exact .inr ⟨[], by rw [h1, List.append_nil], by rw [List.nil_append] at h2 ⊢; exact h2.symm⟩
    | cons y c =>
      rw [List.cons_append] at h2
      obtain ⟨rfl, h2⟩ := List.cons.inj h2
      exact .inl ⟨c, h1⟩

theorem zip_take_right {α β : Type} : ∀ (a : List α) (b : List β),
    a.zip b = a.zip (b.take a.length)
  | [], _ => rfl
  | _ :: _, [] => rfl
  | x :: a, y :: b => by simp [zip_take_right a b]

/-- one move that adds some of the events of a portion, with their marks -/
theorem minv_add {C : Cfg} {p : St × List (Event × Flags)} (h : MInv C p) {s' : St}
    {evs more : List Event} {fs : List Flags} (ht : s'.trace = p.1.trace ++ evs)
    (hm : Marked p.1.trace (evs ++ more) fs)
    (hcur : s'.phase = .created ∨ s'.phase.active = true → Agree s'.flags s'.trace)
    (hst : ∀ e ∈ evs, ∀ f ∈ fs, e.late = true → StaleMarks C.dag C.ask f) :
    MInv C (s', p.2 ++ (s'.trace.drop p.1.trace.length).zip fs) := by
  have hd : s'.trace.drop p.1.trace.length = evs := by rw [ht]; simp
  have hl := marked_length hm
  rw [List.length_append] at hl
  rw [hd]
  refine ⟨?_, ?_, hcur, ?_⟩
  · rw [List.map_append, h.fst, ht, List.map_fst_zip (by omega)]
  · intro pre e f post heq hc
    rcases split_append heq with ⟨q, hq⟩ | ⟨q, rfl, hq⟩
    · exact h.said pre e f q hq hc
    · have hz : (evs ++ more).zip fs = q ++ (e, f) :: (post ++ more.zip (fs.drop evs.length)) := by
        have : fs = fs.take evs.length ++ fs.drop evs.length := (List.take_append_drop _ _).symm
        have h1 : (evs ++ more).zip fs =
            evs.zip (fs.take evs.length) ++ more.zip (fs.drop evs.length) := by
          conv_lhs => rw [this]
          exact List.zip_append (by rw [List.length_take]; omega)
        have h2 : evs.zip fs = evs.zip (fs.take evs.length) := zip_take_right evs fs
        rw [h1, ← h2, hq]
        simp
      have := marked_split hm hz
      rw [List.map_append, h.fst]
      exact this
  · intro e f hef hlate
    rcases List.mem_append.1 hef with h1 | h1
    · exact h.stale e f h1 hlate
    · have := List.of_mem_zip h1
      exact hst e this.1 f this.2 hlate

/-- an event of another thread -/
theorem minv_other {C : Cfg} {p : St × List (Event × Flags)} (h : MInv C p) {s' : St}
    {e : Event} (ht : s'.trace = p.1.trace ++ [e]) (hn : e.neutral = true)
    (hc : e.isCallback = false) (hf : s'.flags = p.1.flags) (hp : s'.phase = p.1.phase) :
    MInv C (s', p.2 ++ (s'.trace.drop p.1.trace.length).zip [p.1.flags]) := by
  have hd : s'.trace.drop p.1.trace.length = [e] := by rw [ht]; simp
  rw [hd]
  refine ⟨?_, ?_, ?_, ?_⟩
  · simp [h.fst, ht]
  · intro pre e' f post heq hc'
    rcases split_append heq with ⟨q, hq⟩ | ⟨q, rfl, hq⟩
    · exact h.said pre e' f q hq hc'
    · cases q with
      | nil =>
        simp only [List.zip_cons_cons, List.zip_nil_right, List.nil_append, List.cons.injEq,
          Prod.mk.injEq] at hq
        obtain ⟨⟨rfl, _⟩, _⟩ := hq
        rw [hc] at hc'; cases hc'
      | cons x q => simp at hq
  · intro hx
    rw [ht, hf]
    exact agree_neutral (h.cur (hp ▸ hx)) hn
  · intro e' f hef hlate
    rcases List.mem_append.1 hef with h1 | h1
    · exact h.stale e' f h1 hlate
    · simp only [List.zip_cons_cons, List.zip_nil_right, List.mem_singleton, Prod.mk.injEq] at h1
      obtain ⟨rfl, rfl⟩ := h1
      cases e' <;> simp_all [Event.late, Event.isCallback]

theorem minv_same {C : Cfg} {p : St × List (Event × Flags)} (h : MInv C p) {s' : St}
    (ht : s'.trace = p.1.trace)
    (hcur : s'.phase = .created ∨ s'.phase.active = true → Agree s'.flags s'.trace)
    (fs : List Flags) : MInv C (s', p.2 ++ (s'.trace.drop p.1.trace.length).zip fs) := by
  have hd : s'.trace.drop p.1.trace.length = [] := by rw [ht]; simp
  rw [hd]
  exact ⟨by simpa using h.fst.trans ht.symm, by simpa using h.said, hcur, by simpa using h.stale⟩

theorem portion_stale {C : Cfg} (hwf : C.dag.WF) {s : St} (hI : Inv C s) (ok : Bool)
    {evs : List Event} (ht : (ctlStep C s ok).trace = s.trace ++ evs) :
    ∀ e ∈ evs, ∀ f ∈ ctlMarks C s ok, e.late = true → StaleMarks C.dag C.ask f := by
  intro e he f hf hl
  by_cases hp : s.phase = .created
  · exfalso
    have hs := hI.createdInit hp
    have h1 : ctlStep C s ok = prologue C St.init := by
      unfold ctlStep; rw [hp]; simp only; rw [hs]
    obtain ⟨mid, h2, h3, _⟩ := prologue_tail hwf
    rw [h1, h2, hs] at ht
    have h4 : evs = .resumed :: mid := by simpa [St.init] using ht.symm
    rw [h4] at he
    rcases List.mem_cons.1 he with rfl | he
    · simp [Event.late] at hl
    · have := h3 e he
      cases e <;> simp_all [Event.late, proEv]
  · obtain ⟨ha, hi⟩ := ctlMarks_inval C s ok hp f hf
    exact staleMarks_of hI ha hi

theorem minv_step {C : Cfg} (hwf : C.dag.WF) {p : St × List (Event × Flags)} (hI : Inv C p.1)
    (h : MInv C p) (m : Move) : MInv C (mstep C p m) := by
  have ctl : ∀ ok, MInv C (ctlStep C p.1 ok, p.2 ++
      ((ctlStep C p.1 ok).trace.drop p.1.trace.length).zip (ctlMarks C p.1 ok)) := by
    intro ok
    obtain ⟨evs, h1, h2, h3⟩ := ctl_marks C p.1 ok h.cur
    refine minv_add h h1 (more := []) (by simpa using h2) ?_ (portion_stale hwf hI ok h1)
    rintro (hx | hx)
    · have hI' : Inv C (ctlStep C p.1 ok) := by
        cases ok
        · exact inv_step hwf hI .ctlFail
        · exact inv_step hwf hI .ctl
      rw [hI'.createdInit hx]
      exact agree_init
    · rw [h1]; exact h3 hx
  cases m with
  | ctl => exact ctl true
  | ctlFail => exact ctl false
  | fault f =>
    obtain ⟨evs, h1, h2, h3⟩ := ctl_marks C p.1 true h.cur
    show MInv C (faultStep C p.1 f, p.2 ++
      ((faultStep C p.1 f).trace.drop p.1.trace.length).zip (ctlMarks C p.1 true))
    rcases fault_cases C p.1 f with hf | ⟨pre, er, r, ref, post, _, _, hf⟩ |
      ⟨pre, e, post, _, ht, _, _, hf⟩ | ⟨_, _, hf⟩
    · rw [hf]; exact ctl true
    · rw [hf]
      exact minv_add (s' := { ctlStep C p.1 true with phase := .unwinding f.exc }) h h1 (more := [])
        (by simpa using h2) (by simp [Phase.active]) (portion_stale hwf hI true h1)
    · have hev : evs = pre ++ e :: post := by rw [h1] at ht; exact List.append_cancel_left ht
      rw [hf]
      refine minv_add (s' := { p.1 with phase := .unwinding f.exc
                                        trace := p.1.trace ++ (pre ++ [e]) })
        h rfl (more := post) (by simpa [hev] using h2) (by simp [Phase.active]) ?_
      intro e' he'
      refine portion_stale hwf hI true h1 e' ?_
      rw [hev]
      simp only [List.mem_append, List.mem_cons, List.not_mem_nil, or_false] at he' ⊢
      rcases he' with h | h
      · exact .inl h
      · exact .inr (.inl h)
    · rw [hf]
      exact minv_same (s' := { p.1 with phase := .unwinding f.exc }) h rfl (by simp [Phase.active]) _
  | begin n =>
    show MInv C (step C p.1 (.begin n), p.2 ++
      ((step C p.1 (.begin n)).trace.drop p.1.trace.length).zip [p.1.flags])
    unfold step
    dsimp only
    split
    · exact minv_same h rfl h.cur _
    · split
      · exact minv_other h (e := .jobBegin n false) rfl rfl rfl rfl rfl
      · exact minv_same h rfl h.cur _
  | finish n =>
    show MInv C (step C p.1 (.finish n), p.2 ++
      ((step C p.1 (.finish n)).trace.drop p.1.trace.length).zip [p.1.flags])
    unfold step
    dsimp only
    split
    · exact minv_same h rfl h.cur _
    · split
      · exact minv_other h (e := .jobEnd n) rfl rfl rfl rfl rfl
      · exact minv_same h rfl h.cur _
  | destroy =>
    show MInv C (destroyStep p.1, p.2 ++ ((destroyStep p.1).trace.drop p.1.trace.length).zip [])
    unfold destroyStep
    split <;> first
      | exact minv_same (s' := { p.1 with phase := .destroying }) h rfl (by simp [Phase.active]) _
      | exact minv_same h rfl h.cur _

theorem mexec_snoc (C : Cfg) (ms : List Move) (m : Move) :
    mexec C (ms ++ [m]) = mstep C (mexec C ms) m := by
  simp [mexec]

theorem mexec_fst (C : Cfg) (ms : List Move) : (mexec C ms).1 = exec C ms := by
  induction ms using List.reverseRecOn with
  | nil => rfl
  | append_singleton ms m ih => rw [mexec_snoc, exec_snoc, ← ih]; rfl

theorem minv_exec {C : Cfg} (hwf : C.dag.WF) (ms : List Move) : MInv C (mexec C ms) := by
  induction ms using List.reverseRecOn with
  | nil => exact minv_init C
  | append_singleton ms m ih =>
    rw [mexec_snoc]
    exact minv_step hwf (by rw [mexec_fst]; exact inv_exec hwf ms) ih m

end Joque
